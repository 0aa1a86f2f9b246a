import Verif.Model.Engines
import Verif.Prop.Gaps
import Verif.Prop.BlockIo
import Verif.Prop.PackNode

/-!
# C70: what every I/O engine owes its caller
-/

namespace Verif.Eng

variable {β : Type}

/-! ## Specification -/

/-- The answer to a request for the blocks `locs`: one answer for each, in order, and what is said to be the content of a block is what the device
has there. -/
def ReadsRight (dev : Nat → β) (locs : List Nat) (res : List (Option β)) : Prop :=
  res.length = locs.length ∧ ∀ (i : Nat) (x : β), res[i]? = some (some x) → ∃ l, locs[i]? = some l ∧ x = dev l

/-- The outcome of writing `blocks`: one answer for each, in order; a block said to be written is on the device, unless the same request writes that place
again later; and no other place has changed. -/
structure WritesRight (dev dev' : Nat → β) (blocks : List (Nat × β)) (res : List Bool) : Prop where
  results : res.length = blocks.length
  written : ∀ (i l : Nat) (x : β), res[i]? = some true → blocks[i]? = some (l, x) → (∀ (j : Nat) (y : β), i < j → blocks[j]? ≠ some (l, y)) → dev' l = x
  frame : ∀ l, (∀ b ∈ blocks, b.1 ≠ l) → dev' l = dev l

/-! ## The asynchronous engine -/

theorem execAll_cons (ans : Nat → Compl) (junk : Nat → Option β) (s : Ring β) (r : Req) (l : List Req) :
    execAll ans junk s (r :: l) = execAll ans junk (exec ans junk s r) l := rfl

theorem exec_read (ans : Nat → Compl) (junk : Nat → Option β) (s : Ring β) (r : Req) (h : r.op = .read) :
    (exec ans junk s r).dev = s.dev ∧ (exec ans junk s r).bufs.length = s.bufs.length ∧
    (∀ i, i ≠ r.buf → (exec ans junk s r).bufs[i]? = s.bufs[i]?) ∧
    (ans r.buf = .done 4096 → r.buf < s.bufs.length → (exec ans junk s r).bufs[r.buf]? = some (s.dev r.loc)) := by
  unfold exec
  rw [h]
  simp only
  by_cases c : ans r.buf = .done 4096
  · rw [if_pos c]
    refine ⟨rfl, by simp, fun i hi => by simp [List.getElem?_set, Ne.symm hi], fun _ hb => by simp [List.getElem?_set, hb]⟩
  · rw [if_neg c]
    cases junk r.buf with
    | none => exact ⟨rfl, rfl, fun _ _ => rfl, fun h => absurd h c⟩
    | some x => exact ⟨rfl, by simp, fun i hi => by simp [List.getElem?_set, Ne.symm hi], fun h => absurd h c⟩

theorem execAll_reads (ans : Nat → Compl) (junk : Nat → Option β) : ∀ (l : List Req) (s : Ring β), (∀ r ∈ l, r.op = .read) → (l.map (·.buf)).Nodup →
    (execAll ans junk s l).dev = s.dev ∧ (execAll ans junk s l).bufs.length = s.bufs.length ∧
    (∀ i, i ∉ l.map (·.buf) → (execAll ans junk s l).bufs[i]? = s.bufs[i]?) ∧
    (∀ r ∈ l, ans r.buf = .done 4096 → r.buf < s.bufs.length → (execAll ans junk s l).bufs[r.buf]? = some (s.dev r.loc)) := by
  intro l
  induction l with
  | nil => intro s _ _; exact ⟨rfl, rfl, fun _ _ => rfl, fun r hr => by cases hr⟩
  | cons r l ih =>
    intro s hop hnd
    rw [List.map_cons, List.nodup_cons] at hnd
    obtain ⟨e1, e2, e3, e4⟩ := exec_read ans junk s r (hop r (List.mem_cons_self ..))
    obtain ⟨i1, i2, i3, i4⟩ := ih (exec ans junk s r) (fun q hq => hop q (List.mem_cons_of_mem _ hq)) hnd.2
    rw [execAll_cons]
    refine ⟨i1.trans e1, i2.trans e2, fun i hi => ?_, fun q hq ha hb => ?_⟩
    · rw [List.map_cons, List.mem_cons, not_or] at hi
      rw [i3 i hi.2, e3 i hi.1]
    · rcases List.mem_cons.mp hq with rfl | hq
      · rw [i3 _ hnd.1]
        exact e4 ha hb
      · rw [i4 q hq ha (by rw [e2]; exact hb), e1]

theorem submit_bufs (op : Op) (locs : List Nat) : (submit op locs).map (·.buf) = List.range locs.length := by
  unfold submit
  apply List.ext_getElem?
  intro i
  simp only [List.getElem?_map, List.getElem?_mapIdx, List.getElem?_range]
  by_cases h : i < locs.length
  · rw [List.getElem?_eq_getElem h, List.getElem?_range h]; rfl
  · rw [List.getElem?_eq_none (by omega), List.getElem?_eq_none (by simp; omega)]; rfl

theorem submit_mem {op : Op} {locs : List Nat} {i l : Nat} (h : locs[i]? = some l) : (⟨op, i, l⟩ : Req) ∈ submit op locs := by
  unfold submit
  refine List.mem_of_getElem? (i := i) ?_
  rw [List.getElem?_mapIdx, h]
  rfl

theorem submit_op {op : Op} {locs : List Nat} {r : Req} (h : r ∈ submit op locs) : r.op = op := by
  unfold submit at h
  obtain ⟨i, hi, rfl⟩ := List.mem_mapIdx.mp h
  rfl

theorem mem_errs {ans : Nat → Compl} {n i : Nat} : i ∈ errs ans n ↔ i < n ∧ ans i ≠ .done 4096 := by
  unfold errs
  simp

theorem submitted_reads {ans : Nat → Compl} {junk : Nat → Option β} {order : List Req} {locs : List Nat} (dev : Nat → β) (bufs : List β)
    (ho : order.Perm (submit .read locs)) (hl : bufs.length = locs.length) :
    (execAll ans junk ⟨dev, bufs⟩ order).dev = dev ∧ (execAll ans junk ⟨dev, bufs⟩ order).bufs.length = locs.length ∧
    ∀ (i l : Nat), locs[i]? = some l → ans i = .done 4096 → (execAll ans junk ⟨dev, bufs⟩ order).bufs[i]? = some (dev l) := by
  have hn : (order.map (·.buf)).Nodup := (ho.map (·.buf)).nodup_iff.mpr (by rw [submit_bufs]; exact List.nodup_range)
  obtain ⟨e1, e2, _, e4⟩ := execAll_reads ans junk order ⟨dev, bufs⟩ (fun r hr => submit_op (ho.mem_iff.mp hr)) hn
  refine ⟨e1, e2.trans hl, fun i l hi ha => ?_⟩
  have hlt : i < locs.length := (List.getElem?_eq_some_iff.mp hi).1
  exact e4 ⟨.read, i, l⟩ (ho.mem_iff.mpr (submit_mem hi)) ha (by show i < bufs.length; omega)

/-- C70, asynchronous reads of many blocks: in whatever order the kernel carries them out and however they end, the answers are right, and
a block whose transfer was complete is not reported as an error. -/
theorem async_readMany_correct (ans : Nat → Compl) (junk : Nat → Option β) (order : List Req) (dev : Nat → β) (locs : List Nat) (fresh : List β)
    (ho : order.Perm (submit .read locs)) (hl : fresh.length = locs.length) :
    ReadsRight dev locs (asyncReadMany ans junk order dev fresh) ∧
    ∀ (i l : Nat), locs[i]? = some l → ans i = .done 4096 → (asyncReadMany ans junk order dev fresh)[i]? = some (some (dev l)) := by
  obtain ⟨_, e2, e3⟩ := submitted_reads (ans := ans) (junk := junk) dev fresh ho hl
  have hres : ∀ (i l : Nat), locs[i]? = some l → ans i = .done 4096 → (asyncReadMany ans junk order dev fresh)[i]? = some (some (dev l)) := by
    intro i l hi ha
    unfold asyncReadMany
    simp only [List.getElem?_mapIdx]
    rw [e3 i l hi ha, Option.map_some, if_neg (by rw [mem_errs]; exact fun h => h.2 ha)]
  refine ⟨⟨?_, fun i x hx => ?_⟩, hres⟩
  · unfold asyncReadMany
    rw [List.length_mapIdx]
    exact e2
  · have hlt : i < locs.length := by
      rw [← e2, ← List.length_mapIdx (f := fun i b => if i ∈ errs ans (execAll ans junk ⟨dev, fresh⟩ order).bufs.length then none else some b)]
      exact (List.getElem?_eq_some_iff.mp hx).1
    have hi : locs[i]? = some locs[i] := List.getElem?_eq_getElem hlt
    refine ⟨locs[i], hi, ?_⟩
    by_cases ha : ans i = .done 4096
    · rw [hres i _ hi ha] at hx
      cases hx
      rfl
    · exfalso
      unfold asyncReadMany at hx
      simp only [List.getElem?_mapIdx] at hx
      cases hb : (execAll ans junk ⟨dev, fresh⟩ order).bufs[i]? with
      | none => rw [hb] at hx; cases hx
      | some b =>
        rw [hb, Option.map_some, if_pos (mem_errs.mpr ⟨by rw [e2]; exact hlt, ha⟩)] at hx
        cases hx

/-- C70, asynchronous read of a block: its content, or an error unless the transfer was complete. -/
theorem async_read_correct (ans : Compl) (junk : Option β) (dev : Nat → β) (b : β) (loc : Nat) :
    asyncRead ans junk dev b loc = if ans = .done 4096 then some (dev loc) else none := by
  unfold asyncRead
  by_cases c : ans = .done 4096
  · simp [exec, c]
  · simp [c]

/-- C70, asynchronous write of a block: success is reported exactly if the transfer was complete, then the block is on the device, and no other place changes. -/
theorem async_write_correct (ans : Compl) (junk : Option β) (dev : Nat → β) (loc : Nat) (b : β) :
    WritesRight dev (asyncWrite ans junk dev loc b).1 [(loc, b)] [(asyncWrite ans junk dev loc b).2] ∧
    ((asyncWrite ans junk dev loc b).2 = true ↔ ans = .done 4096) := by
  refine ⟨⟨rfl, ?_, ?_⟩, by simp [asyncWrite]⟩
  · intro i l x hi hb _
    cases i with
    | zero =>
      simp only [List.getElem?_cons_zero, Option.some.injEq, Prod.mk.injEq] at hi hb
      obtain ⟨rfl, rfl⟩ := hb
      have c : ans = .done 4096 := by simpa [asyncWrite] using hi
      simp [asyncWrite, exec, c]
    | succ i => simp at hi
  · intro l hl
    have hl := hl (loc, b) (by simp)
    unfold asyncWrite exec
    simp only
    cases (if ans = .done 4096 then [b][0]? else junk) with
    | none => rfl
    | some x => simp only; rw [if_neg (fun h => hl h.symm)]

/-- C70 is false of the asynchronous engine when it is asked to write several blocks: it reads instead.  Whatever blocks are given, in whatever order the
kernel carries the requests out, if all of them complete then success is reported for every block, nothing on the device has changed, and the caller's
buffers hold what was on the device. -/
theorem async_writeMany_refuted (ans : Nat → Compl) (junk : Nat → Option β) (order : List Req) (dev : Nat → β) (blocks : List (Nat × β))
    (ho : order.Perm (writeManyReqs blocks)) (ha : ∀ i, ans i = .done 4096) :
    (asyncWriteMany ans junk order dev blocks).2 = List.replicate blocks.length true ∧
    (asyncWriteMany ans junk order dev blocks).1.dev = dev ∧
    (asyncWriteMany ans junk order dev blocks).1.bufs = blocks.map (fun b => dev b.1) := by
  obtain ⟨e1, e2, e3⟩ := submitted_reads (ans := ans) (junk := junk) (locs := blocks.map (·.1)) dev (blocks.map (·.2)) ho (by simp)
  refine ⟨?_, e1, ?_⟩
  · unfold asyncWriteMany
    simp only
    refine List.eq_replicate_iff.mpr ⟨by simp, ?_⟩
    intro b hb
    obtain ⟨i, _, rfl⟩ := List.mem_map.mp hb
    rw [if_neg (by rw [mem_errs]; exact fun h => h.2 (ha i))]
  · apply List.ext_getElem?
    intro i
    show (execAll ans junk ⟨dev, blocks.map (·.2)⟩ order).bufs[i]? = _
    by_cases h : i < blocks.length
    · rw [e3 i (blocks[i]).1 (by simp [h]) (ha i)]
      simp [h]
    · rw [List.getElem?_eq_none (by rw [e2]; simp; omega), List.getElem?_eq_none (by simp; omega)]

/-- so a request to write a block with a content that it does not have already is never right, although it is reported as a success -/
theorem async_writeMany_lost (dev : Nat → β) (l : Nat) (x : β) (h : dev l ≠ x) (junk : Nat → Option β) :
    ¬ WritesRight dev (asyncWriteMany (fun _ => .done 4096) junk (writeManyReqs [(l, x)]) dev [(l, x)]).1.dev [(l, x)]
      (asyncWriteMany (fun _ => .done 4096) junk (writeManyReqs [(l, x)]) dev [(l, x)]).2 := by
  obtain ⟨e1, e2, _⟩ := async_writeMany_refuted (fun _ => .done 4096) junk (writeManyReqs [(l, x)]) dev [(l, x)] (List.Perm.refl _) (fun _ => rfl)
  rw [e1, e2]
  intro hw
  exact h (hw.written 0 l x rfl rfl (fun j y hj => by
    rw [List.getElem?_eq_none (by simp; omega)]; exact fun h => by cases h))

/-- what this means for the write batcher: on this engine every flush succeeds, forgets the queued blocks and writes none -/
theorem async_flush_refuted (order : List Req) (junk : Nat → Option β) (b : Batch.Batcher β) (ho : order.Perm (writeManyReqs b.queue)) :
    (asyncWriteMany (fun _ => .done 4096) junk order b.disk.data b.queue).1.dev = (b.flush ⟨false, fun _ => true⟩).1.disk.data ∧
    b.flush ⟨false, fun _ => true⟩ = ({ b with queue := [] }, true) := by
  have hput : ∀ (q : List (Nat × β)) (i : Nat) (d : Batch.Disk β), Batch.Disk.putMany (fun _ => true) i d q = d := by
    intro q
    induction q with
    | nil => intro _ _; rfl
    | cons p q ih => intro i d; unfold Batch.Disk.putMany; rw [if_pos rfl]; exact ih _ _
  have hf : b.flush ⟨false, fun _ => true⟩ = ({ b with queue := [] }, true) := by
    unfold Batch.Batcher.flush Batch.Batcher.flush_
    by_cases c : b.queue = []
    · rw [if_pos c, ← c]
    · rw [if_neg c, hput]
      rfl
  refine ⟨?_, hf⟩
  rw [hf]
  exact (async_writeMany_refuted _ junk order b.disk.data b.queue ho (fun _ => rfl)).2.1

/-! ## The synchronous engine -/

theorem syncWriteGo_spec (ans : Nat → Nat → Nat → Bio.WAns β) : ∀ (runs : List (Nat × Nat)) (k : Nat) (blocks : List (Nat × β)) (store store' : Nat → β) (res : List Bool),
    runs.flatMap (fun r => List.range' r.1 r.2) = blocks.map (·.1) → syncWriteGo ans k runs (blocks.map (·.2)) store = some (store', res) →
    WritesRight (fun l => store (l * 4096)) (fun l => store' (l * 4096)) blocks res := by
  intro runs
  induction runs with
  | nil =>
    intro k blocks store store' res hr h
    have : blocks = [] := by simpa using hr.symm
    subst this
    cases h
    exact ⟨rfl, fun i l x hi => by simp at hi, fun _ _ => rfl⟩
  | cons run runs ih =>
    obtain ⟨b, n⟩ := run
    intro k blocks store store' res hr h
    rw [List.flatMap_cons] at hr
    simp only at hr
    unfold syncWriteGo at h
    have hlen : n ≤ blocks.length := by
      have := congrArg List.length hr
      simp only [List.length_append, List.length_range', List.length_map] at this
      omega
    have hr1 : (blocks.take n).map (·.1) = List.range' b n := by
      rw [List.map_take, ← hr, List.take_append_of_le_length (by simp), List.take_of_length_le (by simp)]
    have hr2 : runs.flatMap (fun r => List.range' r.1 r.2) = (blocks.drop n).map (·.1) := by
      rw [List.map_drop, ← hr, List.drop_append, List.drop_of_length_le (by simp)]
      simp
    have hloc : ∀ (j l : Nat) (x : β), j < n → blocks[j]? = some (l, x) → l = b + j := by
      intro j l x hj hb
      have := congrArg (fun q => q[j]?) hr1
      simp only [List.getElem?_map, List.getElem?_take_of_lt hj, hb, Option.map_some] at this
      rw [List.getElem?_range' hj] at this
      simpa using this
    cases h1 : Bio.writeBlocks 4096 (ans k) (b * 4096) ((blocks.map (·.2)).take n) store with
    | none => rw [h1] at h; cases h
    | some r =>
      rw [h1] at h
      simp only at h
      cases h2 : syncWriteGo ans (k + 1) runs ((blocks.map (·.2)).drop n) r.1 with
      | none => rw [h2] at h; cases h
      | some q =>
        rw [h2] at h
        cases h
        have w1 := Bio.writeBlocks_sound 4096 (by omega) (ans k) (b * 4096) _ store r h1
        have w2 := ih (k + 1) (blocks.drop n) r.1 q.1 q.2 hr2 (by rw [List.map_drop]; exact h2)
        have hl1 : r.2.length = n := by rw [w1.results]; simp; omega
        refine ⟨?_, ?_, ?_⟩
        · rw [List.length_append, hl1, w2.results, List.length_drop]; omega
        · intro i l x hi hb hlast
          by_cases c : i < n
          · rw [List.getElem?_append_left (by omega)] at hi
            show q.1 (l * 4096) = x
            rw [w2.frame l ?_]
            · have hl := hloc i l x c hb
              have := w1.written i x hi (by rw [List.getElem?_take_of_lt c, List.getElem?_map, hb]; rfl)
              rw [hl, Nat.add_mul]
              exact this
            · intro p hp hpl
              obtain ⟨j, hj⟩ := List.mem_iff_getElem?.mp hp
              rw [List.getElem?_drop] at hj
              obtain ⟨p1, p2⟩ := p
              simp only at hpl
              subst hpl
              exact hlast (n + j) p2 (by omega) hj
          · rw [List.getElem?_append_right (by omega), hl1] at hi
            refine w2.written (i - n) l x hi (by rw [List.getElem?_drop, show n + (i - n) = i by omega]; exact hb) ?_
            intro j y hj
            rw [List.getElem?_drop]
            exact hlast (n + j) y (by omega)
        · intro l hl
          show q.1 (l * 4096) = _
          rw [w2.frame l (fun p hp => hl p (List.mem_of_mem_drop hp)), w1.frame]
          intro j hj he
          rw [List.length_take, List.length_map] at hj
          have hj' : j < n := by omega
          have hb : blocks[j]? = some blocks[j] := List.getElem?_eq_getElem (by omega)
          have := hloc j blocks[j].1 blocks[j].2 hj' hb
          exact hl blocks[j] (List.getElem_mem _) (by omega)

/-- C70, synchronous writes of many blocks: if the call returns, its answers are right.  The limit on the buffers of a system call does not matter. -/
theorem sync_writeMany_sound (maxIov : Nat) (hm : 1 ≤ maxIov) (ans : Nat → Nat → Nat → Bio.WAns β) (blocks : List (Nat × β)) (store store' : Nat → β) (res : List Bool)
    (h : syncWriteMany maxIov ans blocks store = some (store', res)) :
    WritesRight (fun l => store (l * 4096)) (fun l => store' (l * 4096)) blocks res :=
  syncWriteGo_spec ans _ 0 blocks store store' res (Gaps.find_runs_nogap_spec maxIov hm _).1 h

theorem syncWriteGo_total (ans : Nat → Nat → Nat → Bio.WAns β) (hw : ∀ k, Bio.Whole 4096 (ans k)) : ∀ (runs : List (Nat × Nat)) (k : Nat) (bufs : List β) (store : Nat → β),
    ∃ r, syncWriteGo ans k runs bufs store = some r := by
  intro runs
  induction runs with
  | nil => intro _ _ _; exact ⟨_, rfl⟩
  | cons run runs ih =>
    obtain ⟨b, n⟩ := run
    intro k bufs store
    obtain ⟨r, h, _⟩ := Bio.writeBlocks_partial 4096 (by omega) (ans k) (hw k) (b * 4096) (bufs.take n) store
    obtain ⟨q, hq⟩ := ih (k + 1) (bufs.drop n) r.1
    unfold syncWriteGo
    rw [h]
    simp only
    rw [hq]
    exact ⟨_, rfl⟩

/-- and it returns, if the device answers only with errors or with at least one whole block -/
theorem sync_writeMany_returns (maxIov : Nat) (ans : Nat → Nat → Nat → Bio.WAns β) (hw : ∀ k, Bio.Whole 4096 (ans k)) (blocks : List (Nat × β)) (store : Nat → β) :
    ∃ r, syncWriteMany maxIov ans blocks store = some r := syncWriteGo_total ans hw _ 0 _ store

/-! ## The engine in memory -/

theorem core_read (d : Batch.Disk β) (b : Nat) : (∃ x, coreRead d b = some x) ↔ b < d.nr := by
  unfold coreRead
  by_cases c : b ≥ d.nr
  · rw [if_pos c]
    exact ⟨fun ⟨_, h⟩ => (by cases h), fun h => absurd h (by omega)⟩
  · rw [if_neg c]
    exact ⟨fun _ => by omega, fun _ => ⟨_, rfl⟩⟩

/-- C70, the engine in memory, reads -/
theorem core_readMany_correct (d : Batch.Disk β) (locs : List Nat) :
    ReadsRight d.data locs (coreReadMany d locs) ∧
    ∀ (i l : Nat), locs[i]? = some l → l < d.nr → (coreReadMany d locs)[i]? = some (some (d.data l)) := by
  have hval : ∀ l, coreRead d l = if l ≥ d.nr then none else some (d.data l) := fun _ => rfl
  refine ⟨⟨by simp [coreReadMany], fun i x hx => ?_⟩, fun i l hi hl => ?_⟩
  · unfold coreReadMany at hx
    rw [List.getElem?_map] at hx
    cases hi : locs[i]? with
    | none => rw [hi] at hx; cases hx
    | some l =>
      rw [hi, Option.map_some, hval] at hx
      refine ⟨l, rfl, ?_⟩
      by_cases c : l ≥ d.nr
      · rw [if_pos c] at hx; cases hx
      · rw [if_neg c] at hx; cases hx; rfl
  · unfold coreReadMany
    rw [List.getElem?_map, hi, Option.map_some, hval, if_neg (by omega)]

/-- C70, the engine in memory, writes: success exactly for the blocks that exist -/
theorem core_writeMany_correct : ∀ (blocks : List (Nat × β)) (d : Batch.Disk β),
    WritesRight d.data (coreWriteMany d blocks).1.data blocks (coreWriteMany d blocks).2 ∧ (coreWriteMany d blocks).1.nr = d.nr ∧
    ∀ (i l : Nat) (x : β), blocks[i]? = some (l, x) → ((coreWriteMany d blocks).2[i]? = some true ↔ l < d.nr) := by
  intro blocks
  induction blocks with
  | nil => intro d; exact ⟨⟨rfl, fun i l x hi => by simp [coreWriteMany] at hi, fun _ _ => rfl⟩, rfl, fun i l x hi => by simp at hi⟩
  | cons p blocks ih =>
    obtain ⟨l0, x0⟩ := p
    intro d
    have hw : (coreWrite d l0 x0).1.nr = d.nr ∧ ((coreWrite d l0 x0).2 = true ↔ l0 < d.nr) ∧
        (∀ b, b ≠ l0 → (coreWrite d l0 x0).1.data b = d.data b) ∧ ((coreWrite d l0 x0).2 = true → (coreWrite d l0 x0).1.data l0 = x0) := by
      unfold coreWrite
      by_cases c : l0 ≥ d.nr
      · rw [if_pos c]
        refine ⟨rfl, ⟨fun h => (by cases h), fun h => absurd h (by omega)⟩, fun _ _ => rfl, fun h => by cases h⟩
      · rw [if_neg c]
        refine ⟨rfl, ⟨fun _ => by omega, fun _ => rfl⟩, fun b hb => by simp [hb], fun _ => by simp⟩
    obtain ⟨w1, w2, w3, w4⟩ := hw
    obtain ⟨g, gn, gi⟩ := ih (coreWrite d l0 x0).1
    refine ⟨⟨?_, ?_, ?_⟩, gn.trans w1, ?_⟩
    · show (_ :: _).length = _; rw [List.length_cons, g.results, List.length_cons]
    · intro i l x hi hb hlast
      cases i with
      | zero =>
        simp only [List.getElem?_cons_zero, Option.some.injEq, Prod.mk.injEq] at hb
        obtain ⟨rfl, rfl⟩ := hb
        have hi : (coreWrite d l0 x0).2 = true := by
          have : ((coreWrite d l0 x0).2 :: (coreWriteMany (coreWrite d l0 x0).1 blocks).2)[0]? = some true := hi
          simpa using this
        show (coreWriteMany (coreWrite d l0 x0).1 blocks).1.data l0 = x0
        rw [g.frame l0 (fun b hb he => ?_)]
        · exact w4 hi
        · obtain ⟨j, hj⟩ := List.mem_iff_getElem?.mp hb
          obtain ⟨b1, b2⟩ := b
          simp only at he
          subst he
          exact hlast (j + 1) b2 (by omega) (by rw [List.getElem?_cons_succ]; exact hj)
      | succ i =>
        exact g.written i l x (by simpa [coreWriteMany] using hi) (by simpa using hb) (fun j y hj h => hlast (j + 1) y (by omega) (by rw [List.getElem?_cons_succ]; exact h))
    · intro l hl
      show (coreWriteMany (coreWrite d l0 x0).1 blocks).1.data l = d.data l
      rw [g.frame l (fun b hb => hl b (List.mem_cons_of_mem _ hb)), w3 l (fun h => hl (l0, x0) (by simp) h.symm)]
    · intro i l x hi
      cases i with
      | zero =>
        simp only [List.getElem?_cons_zero, Option.some.injEq, Prod.mk.injEq] at hi
        obtain ⟨rfl, rfl⟩ := hi
        rw [← w2]
        simp [coreWriteMany]
      | succ i =>
        rw [← w1]
        have := gi i l x (by simpa using hi)
        simpa [coreWriteMany] using this

/-! ## The engine for spindles -/

/-- runs that cover the blocks from `s` to `e` in order, each of them all in use or all not in use -/
def Covers (bits : Nat → Bool) : Nat → Nat → List (Bool × Nat × Nat) → Prop
  | s, e, [] => s = e
  | s, e, (b, s', e') :: rest => s' = s ∧ s < e' ∧ e' ≤ e ∧ (∀ k, s ≤ k → k < e' → bits k = b) ∧ Covers bits e' e rest

theorem runEnd_spec (bits : Nat → Bool) (len : Nat) (b : Bool) : ∀ (fuel cur : Nat), cur ≤ len →
    cur ≤ runEnd bits len b fuel cur ∧ runEnd bits len b fuel cur ≤ len ∧ ∀ k, cur ≤ k → k < runEnd bits len b fuel cur → bits k = b := by
  intro fuel
  induction fuel with
  | zero => intro cur h; exact ⟨Nat.le_refl _, h, fun k h1 h2 => by simp only [runEnd] at h2; omega⟩
  | succ fuel ih =>
    intro cur h
    unfold runEnd
    by_cases c : cur < len ∧ bits cur = b
    · rw [if_pos c]
      obtain ⟨i1, i2, i3⟩ := ih (cur + 1) (by omega)
      refine ⟨by omega, i2, fun k h1 h2 => ?_⟩
      by_cases hk : k = cur
      · rw [hk]; exact c.2
      · exact i3 k (by omega) h2
    · rw [if_neg c]
      exact ⟨Nat.le_refl _, h, fun k h1 h2 => by omega⟩

theorem runIter_covers (bits : Nat → Bool) (len : Nat) : ∀ (fuel cur : Nat), cur ≤ len → len - cur ≤ fuel → Covers bits cur len (runIter bits len fuel cur) := by
  intro fuel
  induction fuel with
  | zero => intro cur h1 h2; show cur = len; omega
  | succ fuel ih =>
    intro cur h1 h2
    unfold runIter
    by_cases c : cur = len
    · rw [if_pos c]; exact c
    · rw [if_neg c]
      obtain ⟨r1, r2, r3⟩ := runEnd_spec bits len (bits cur) len (cur + 1) (by omega)
      refine ⟨rfl, by omega, r2, fun k k1 k2 => ?_, ih _ r2 (by omega)⟩
      by_cases hk : k = cur
      · rw [hk]
      · exact r3 k (by omega) k2

theorem get_insert (c : Cmap) (k j : Nat) (z : Bytes) : (c.insert k z).get j = if j = k then some z else c.get j := by
  unfold Cmap.get Cmap.insert
  rw [List.lookup_cons]
  by_cases h : j = k
  · simp [h]
  · rw [show (j == k) = false by simpa using h, if_neg h]

theorem get_remove (c : Cmap) (k j : Nat) (z : Bytes) (h : (c.remove k).get j = some z) : c.get j = some z := by
  induction c with
  | nil => cases h
  | cons p c ih =>
    obtain ⟨k', z'⟩ := p
    by_cases hk : k' = k
    · have h' : (Cmap.remove c k).get j = some z := by
        have : Cmap.remove ((k', z') :: c) k = Cmap.remove c k := by simp [Cmap.remove, hk]
        rw [this] at h; exact h
      have hc := ih h'
      have hj : j ≠ k := by
        intro e
        have hm : (j, z) ∈ Cmap.remove c k := by
          obtain ⟨l1, l2, e1, _⟩ := List.lookup_eq_some_iff.mp h'
          rw [e1]; simp
        have := (List.mem_filter.mp hm).2
        simp [e] at this
      show List.lookup j ((k', z') :: c) = _
      rw [List.lookup_cons]
      have : (j == k') = false := by simp; omega
      rw [this]
      exact hc
    · have hr : Cmap.remove ((k', z') :: c) k = (k', z') :: Cmap.remove c k := by simp [Cmap.remove, hk]
      rw [hr] at h
      show List.lookup j ((k', z') :: c) = _
      have h : List.lookup j ((k', z') :: Cmap.remove c k) = some z := h
      rw [List.lookup_cons] at h ⊢
      by_cases c' : j == k'
      · rw [c'] at h ⊢; exact h
      · have : (j == k') = false := by simpa using c'
        rw [this] at h ⊢
        exact ih h

/-- a block is of a type that is packed -/
def Known (crc : Bytes → UInt32) (x : Bytes) : Prop := metadataBlockType crc x ≠ .unknown

/-- after the blocks below `s` have been seen: those in use and of a known type are in memory, nothing else -/
def Inv (crc : Bytes → UInt32) (img : Nat → Bytes) (bits : Nat → Bool) (s : Nat) (c : Cmap) : Prop :=
  ∀ k, (k < s ∧ bits k = true ∧ Known crc (img k) → ∃ z, c.get k = some z ∧ Pack.packBlock (metadataBlockType crc (img k)) (img k) = some z) ∧
    (¬ (k < s ∧ bits k = true ∧ Known crc (img k)) → c.get k = none)

theorem Inv.skip {crc : Bytes → UInt32} {img : Nat → Bytes} {bits : Nat → Bool} {s e : Nat} {c : Cmap} (h : Inv crc img bits s c) (hse : s ≤ e)
    (hb : ∀ k, s ≤ k → k < e → ¬ (bits k = true ∧ Known crc (img k))) : Inv crc img bits e c := by
  intro k
  refine ⟨fun ⟨h1, h2⟩ => (h k).1 ⟨?_, h2⟩, fun hn => (h k).2 (fun ⟨h1, h2⟩ => hn ⟨by omega, h2⟩)⟩
  by_cases c : k < s
  · exact c
  · exact absurd h2 (hb k (by omega) h1)

theorem Inv.pack {crc : Bytes → UInt32} {img : Nat → Bytes} {bits : Nat → Bool} {s : Nat} {c : Cmap} {z : Bytes} (h : Inv crc img bits s c)
    (hb : bits s = true) (hk : Known crc (img s)) (hz : Pack.packBlock (metadataBlockType crc (img s)) (img s) = some z) : Inv crc img bits (s + 1) (c.insert s z) := by
  intro k
  rw [get_insert]
  by_cases e : k = s
  · subst e
    rw [if_pos rfl]
    exact ⟨fun _ => ⟨z, rfl, hz⟩, fun hn => absurd ⟨by omega, hb, hk⟩ hn⟩
  · rw [if_neg e]
    exact ⟨fun ⟨h1, h2⟩ => (h k).1 ⟨by omega, h2⟩, fun hn => (h k).2 (fun ⟨h1, h2⟩ => hn ⟨by omega, h2⟩)⟩

theorem packChunk_spec (crc : Bytes → UInt32) (img : Nat → Bytes) (bits : Nat → Bool) : ∀ (n b : Nat) (c c' : Cmap), Inv crc img bits b c →
    (∀ k, b ≤ k → k < b + n → bits k = true) → b + n ≤ 2 ^ 32 → packChunk crc img n b b c = some c' → Inv crc img bits (b + n) c' := by
  intro n
  induction n with
  | zero => intro b c c' hi _ _ h; cases h; exact hi
  | succ n ih =>
    intro b c c' hi hb hlt h
    unfold packChunk at h
    by_cases ck : metadataBlockType crc (img b) ≠ .unknown
    · rw [if_pos ck] at h
      cases hp : Pack.packBlock (metadataBlockType crc (img b)) (img b) with
      | none => rw [hp] at h; cases h
      | some z =>
        rw [hp] at h
        simp only at h
        rw [Nat.mod_eq_of_lt (by omega : b < 2 ^ 32)] at h
        have := ih (b + 1) _ c' (hi.pack (hb b (Nat.le_refl _) (by omega)) ck hp) (fun k h1 h2 => hb k (by omega) (by omega)) (by omega) h
        rw [show b + 1 + n = b + (n + 1) by omega] at this
        exact this
    · rw [if_neg ck] at h
      have := ih (b + 1) c c' (hi.skip (by omega) (fun k h1 h2 hk => by
        have : k = b := by omega
        subst this; exact ck hk.2)) (fun k h1 h2 => hb k (by omega) (by omega)) (by omega) h
      rw [show b + 1 + n = b + (n + 1) by omega] at this
      exact this

theorem readRun_spec (crc : Bytes → UInt32) (nr : Nat) (img : Nat → Bytes) (bits : Nat → Bool) : ∀ (fuel s e cur' : Nat) (c c' : Cmap), Inv crc img bits s c →
    s ≤ e → e - s ≤ fuel → (∀ k, s ≤ k → k < e → bits k = true) → e ≤ 2 ^ 32 → readRun crc nr img fuel s s e c = some (cur', c') →
    cur' = e ∧ Inv crc img bits e c' := by
  intro fuel
  induction fuel with
  | zero =>
    intro s e cur' c c' hi h1 h2 _ _ h
    have : s = e := by omega
    subst this
    cases h
    exact ⟨rfl, hi⟩
  | succ fuel ih =>
    intro s e cur' c c' hi h1 h2 hb hlt h
    unfold readRun at h
    by_cases cs : s ≥ e
    · rw [if_pos cs] at h
      have : s = e := by omega
      subst this
      cases h
      exact ⟨rfl, hi⟩
    · rw [if_neg cs] at h
      simp only at h
      by_cases cl : s + min (e - s) (16 * 1024) > nr
      · rw [if_pos cl] at h; cases h
      · rw [if_neg cl] at h
        cases hp : packChunk crc img (min (e - s) (16 * 1024)) s s c with
        | none => rw [hp] at h; cases h
        | some c1 =>
          rw [hp] at h
          simp only at h
          have hm : min (e - s) (16 * 1024) ≤ e - s ∧ 0 < min (e - s) (16 * 1024) := by omega
          exact ih _ e cur' c1 c' (packChunk_spec crc img bits _ s c c1 hi (fun k a b => hb k a (by omega)) (by omega) hp) (by omega) (by omega)
            (fun k a b => hb k (by omega) b) hlt h

theorem readRuns_spec (crc : Bytes → UInt32) (nr : Nat) (img : Nat → Bytes) (bits : Nat → Bool) (e : Nat) (he : e ≤ 2 ^ 32) : ∀ (runs : List (Bool × Nat × Nat)) (s : Nat) (c c' : Cmap),
    Covers bits s e runs → Inv crc img bits s c → readRuns crc nr img runs s c = some c' → Inv crc img bits e c' := by
  intro runs
  induction runs with
  | nil => intro s c c' hc hi h; cases h; rw [← show s = e from hc]; exact hi
  | cons run runs ih =>
    obtain ⟨b, s', e'⟩ := run
    intro s c c' hc hi h
    obtain ⟨rfl, h1, h2, h3, h4⟩ := hc
    unfold readRuns at h
    by_cases cb : b = false
    · rw [if_pos cb, show s' + (e' - s') = e' by omega] at h
      exact ih e' c c' h4 (hi.skip (by omega) (fun k a b' hk => by rw [h3 k a b', cb] at hk; cases hk.1)) h
    · rw [if_neg cb] at h
      have cb : b = true := by simpa using cb
      subst cb
      cases hr : readRun crc nr img (e' - s') s' s' e' c with
      | none => rw [hr] at h; cases h
      | some r =>
        rw [hr] at h
        simp only at h
        obtain ⟨r1, r2⟩ := r
        obtain ⟨g1, g2⟩ := readRun_spec crc nr img bits _ s' e' r1 c r2 hi (by omega) (Nat.le_refl _) h3 (by omega) hr
        rw [g1] at h
        exact ih e' r2 c' h4 g2 h

theorem new_inv (crc : Bytes → UInt32) (nr : Nat) (img : Nat → Bytes) (bits : Nat → Bool) (c : Cmap) (h : spindleNew crc nr img bits = some c) :
    Inv crc img bits (nr % 2 ^ 32) c := by
  have hlt : nr % 2 ^ 32 < 2 ^ 32 := Nat.mod_lt _ (by decide)
  unfold spindleNew at h
  refine readRuns_spec crc nr img bits (nr % 2 ^ 32) (by omega) _ 0 [] c (runIter_covers bits _ _ 0 (by omega) (by omega)) ?_ h
  intro k
  exact ⟨fun ⟨h, _⟩ => absurd h (by omega), fun _ => rfl⟩

/-- whatever was packed comes back; what may be left over in the stream does not matter here -/
theorem packed_unpacks (crc : Bytes → UInt32) (data z : Bytes) (hlen : data.length = 4096) (h : Pack.packBlock (metadataBlockType crc data) data = some z) :
    ∃ r, Pack.unpack z 4096 = some (data, r) := by
  by_cases hx : Pack.Exceptional data
  · unfold Pack.packBlock at h
    split at h
    · have := (Pack.packNode_runs data z hlen h []).2 hx
      rw [List.append_nil, ← hlen] at this
      rw [← hlen]
      exact ⟨_, Pack.runs_done this⟩
    · cases h
    · obtain ⟨ps, h1, h2⟩ := Pack.packLiteral_lossless data (by omega) (by intro h; rw [h] at hlen; simp at hlen)
      rw [h] at h1
      cases h1
      have := h2 []
      rw [List.append_nil, hlen] at this
      exact ⟨_, this⟩
  · have := Pack.packBlock_lossless_partial crc data z hlen h hx []
    rw [List.append_nil] at this
    exact ⟨_, this⟩

/-- what is in memory is right -/
def Sound (img : Nat → Bytes) (c : Cmap) : Prop := ∀ k z, c.get k = some z → ∃ r, Pack.unpack z 4096 = some (img k, r)

theorem Inv.sound {crc : Bytes → UInt32} {img : Nat → Bytes} {bits : Nat → Bool} {s : Nat} {c : Cmap} (h : Inv crc img bits s c) (hlen : ∀ b, (img b).length = 4096) : Sound img c := by
  intro k z hz
  by_cases hk : k < s ∧ bits k = true ∧ Known crc (img k)
  · obtain ⟨z', h1, h2⟩ := (h k).1 hk
    rw [hz] at h1
    cases h1
    exact packed_unpacks crc (img k) z (hlen k) h2
  · rw [(h k).2 hk] at hz; cases hz

/-- the engine after some attempts to write -/
def afterWrites (c : Cmap) (ws : List Nat) : Cmap := ws.foldl (fun c l => (spindleWrite c l).1) c

theorem afterWrites_sound {img : Nat → Bytes} : ∀ (ws : List Nat) (c : Cmap), Sound img c → Sound img (afterWrites c ws) := by
  intro ws
  induction ws with
  | nil => intro c h; exact h
  | cons w ws ih => intro c h; exact ih _ (fun k z hz => h k z (get_remove c _ k z hz))

theorem spindleRead_sound {img : Nat → Bytes} {c : Cmap} (hs : Sound img c) (ok : Nat → Bool) (loc : Nat) (hl : loc < 2 ^ 32) :
    (∀ x, spindleRead img ok c loc = some x → x = img loc) ∧ (ok loc = true → spindleRead img ok c loc = some (img loc)) := by
  unfold spindleRead
  rw [Nat.mod_eq_of_lt hl]
  cases hz : c.get loc with
  | none =>
    simp only
    refine ⟨fun x hx => ?_, fun ho => by rw [if_pos ho]⟩
    by_cases ho : ok loc = true
    · rw [if_pos ho] at hx; cases hx; rfl
    · rw [if_neg ho] at hx; cases hx
  | some z =>
    obtain ⟨r, hr⟩ := hs loc z hz
    simp only [hr]
    exact ⟨fun x hx => by cases hx; rfl, fun _ => trivial⟩

/-- C70, the spindle engine, for blocks below 2^32: whatever blocks are in use and whatever writes were attempted, the answers are right, and a block that the device
can read is never reported as an error. -/
theorem spindle_readMany_partial (crc : Bytes → UInt32) (nr : Nat) (img : Nat → Bytes) (bits : Nat → Bool) (c : Cmap) (hlen : ∀ b, (img b).length = 4096)
    (h : spindleNew crc nr img bits = some c) (ws : List Nat) (ok : Nat → Bool) (locs : List Nat) (hl : ∀ l ∈ locs, l < 2 ^ 32) :
    ReadsRight img locs (spindleReadMany img ok (afterWrites c ws) locs) ∧
    ∀ (i l : Nat), locs[i]? = some l → ok l = true → (spindleReadMany img ok (afterWrites c ws) locs)[i]? = some (some (img l)) := by
  have hs := afterWrites_sound ws c ((new_inv crc nr img bits c h).sound hlen)
  refine ⟨⟨by simp [spindleReadMany], fun i x hx => ?_⟩, fun i l hi ho => ?_⟩
  · unfold spindleReadMany at hx
    rw [List.getElem?_map] at hx
    cases hi : locs[i]? with
    | none => rw [hi] at hx; cases hx
    | some l =>
      rw [hi, Option.map_some] at hx
      exact ⟨l, rfl, (spindleRead_sound hs ok l (hl l (List.mem_of_getElem? hi))).1 x (Option.some.inj hx)⟩
  · unfold spindleReadMany
    rw [List.getElem?_map, hi, Option.map_some, (spindleRead_sound hs ok l (hl l (List.mem_of_getElem? hi))).2 ho]

/-- a block in use of a known type is answered from memory: the device is not asked -/
theorem spindle_cached (crc : Bytes → UInt32) (nr : Nat) (hnr : nr < 2 ^ 32) (img : Nat → Bytes) (bits : Nat → Bool) (c : Cmap) (hlen : ∀ b, (img b).length = 4096)
    (h : spindleNew crc nr img bits = some c) (ok : Nat → Bool) (l : Nat) (hl : l < nr) (hb : bits l = true) (hk : Known crc (img l)) :
    spindleRead img ok c l = some (img l) := by
  have hi := new_inv crc nr img bits c h
  rw [Nat.mod_eq_of_lt hnr] at hi
  obtain ⟨z, h1, h2⟩ := (hi l).1 ⟨hl, hb, hk⟩
  obtain ⟨r, hr⟩ := packed_unpacks crc (img l) z (hlen l) h2
  unfold spindleRead
  rw [Nat.mod_eq_of_lt (by omega), h1]
  simp only [hr]

/-- the spindle engine writes nothing, and says so -/
theorem spindle_write_fails (c : Cmap) (loc : Nat) : (spindleWrite c loc).2 = false := rfl

/-- C70 is false of the spindle engine beyond 2^32 blocks: such a block is answered with the content of another one, even if it does not exist. -/
theorem spindle_alias_refuted (crc : Bytes → UInt32) (nr : Nat) (hnr : nr < 2 ^ 32) (img : Nat → Bytes) (bits : Nat → Bool) (c : Cmap) (hlen : ∀ b, (img b).length = 4096)
    (h : spindleNew crc nr img bits = some c) (ok : Nat → Bool) (l : Nat) (hl : l < nr) (hb : bits l = true) (hk : Known crc (img l)) (n : Nat) :
    spindleRead img ok c (l + n * 2 ^ 32) = some (img l) := by
  have := spindle_cached crc nr hnr img bits c hlen h ok l hl hb hk
  unfold spindleRead at this ⊢
  rw [Nat.add_mul_mod_self_right, Nat.mod_eq_of_lt (by omega)]
  rw [Nat.mod_eq_of_lt (by omega)] at this
  cases hz : c.get l with
  | some z => rw [hz] at this; exact this
  | none =>
    have hi := new_inv crc nr img bits c h
    rw [Nat.mod_eq_of_lt hnr] at hi
    obtain ⟨z, h1, _⟩ := (hi l).1 ⟨hl, hb, hk⟩
    rw [hz] at h1
    cases h1

/-! ### When the spindle engine can be set up -/

theorem packChunk_total (crc : Bytes → UInt32) (img : Nat → Bytes) : ∀ (n b : Nat) (c : Cmap),
    (∀ k, b ≤ k → k < b + n → Known crc (img k) → ∃ z, Pack.packBlock (metadataBlockType crc (img k)) (img k) = some z) → ∃ c', packChunk crc img n b b c = some c' := by
  intro n
  induction n with
  | zero => intro b c _; exact ⟨_, rfl⟩
  | succ n ih =>
    intro b c h
    unfold packChunk
    by_cases ck : metadataBlockType crc (img b) ≠ .unknown
    · obtain ⟨z, hz⟩ := h b (Nat.le_refl _) (by omega) ck
      rw [if_pos ck, hz]
      exact ih _ _ (fun k h1 h2 => h k (by omega) (by omega))
    · rw [if_neg ck]
      exact ih _ _ (fun k h1 h2 => h k (by omega) (by omega))

theorem readRun_total (crc : Bytes → UInt32) (nr : Nat) (img : Nat → Bytes) : ∀ (fuel s e : Nat) (c : Cmap), s ≤ e → e ≤ nr → e - s ≤ fuel →
    (∀ k, s ≤ k → k < e → Known crc (img k) → ∃ z, Pack.packBlock (metadataBlockType crc (img k)) (img k) = some z) → ∃ c', readRun crc nr img fuel s s e c = some (e, c') := by
  intro fuel
  induction fuel with
  | zero => intro s e c h1 h2 h3 _; exact ⟨c, by rw [show e = s by omega]; rfl⟩
  | succ fuel ih =>
    intro s e c h1 h2 h3 h
    unfold readRun
    by_cases cs : s ≥ e
    · rw [if_pos cs]; exact ⟨c, by rw [show e = s by omega]⟩
    · have hm : min (e - s) (16 * 1024) ≤ e - s ∧ 0 < min (e - s) (16 * 1024) := by omega
      obtain ⟨c', hc⟩ := packChunk_total crc img (min (e - s) (16 * 1024)) s c (fun k h1 h2 => h k h1 (by omega))
      rw [if_neg cs]
      simp only
      rw [if_neg (by omega), hc]
      exact ih _ e c' (by omega) h2 (by omega) (fun k h1 h2 => h k (by omega) h2)

theorem readRuns_total (crc : Bytes → UInt32) (nr : Nat) (img : Nat → Bytes) (bits : Nat → Bool) (e : Nat) (he : e ≤ nr)
    (h : ∀ k, k < e → bits k = true → Known crc (img k) → ∃ z, Pack.packBlock (metadataBlockType crc (img k)) (img k) = some z) :
    ∀ (runs : List (Bool × Nat × Nat)) (s : Nat) (c : Cmap), Covers bits s e runs → ∃ c', readRuns crc nr img runs s c = some c' := by
  intro runs
  induction runs with
  | nil => intro s c _; exact ⟨_, rfl⟩
  | cons run runs ih =>
    obtain ⟨b, s', e'⟩ := run
    intro s c hc
    obtain ⟨rfl, h1, h2, h3, h4⟩ := hc
    unfold readRuns
    by_cases cb : b = false
    · rw [if_pos cb, show s' + (e' - s') = e' by omega]
      exact ih e' c h4
    · have cb' : b = true := by simpa using cb
      obtain ⟨c', hr⟩ := readRun_total crc nr img (e' - s') s' e' c (by omega) (by omega) (Nat.le_refl _)
        (fun k a b' hk => h k (by omega) (by rw [h3 k a b', cb']) hk)
      rw [if_neg cb, hr]
      exact ih e' c' h4

/-- The spindle engine can be set up exactly if the packer accepts every block in use that has the checksum of metadata: one it does not accept, like a node whose
header claims more entries than fit, makes the tool give up before it has started. -/
theorem spindle_new_iff (crc : Bytes → UInt32) (nr : Nat) (img : Nat → Bytes) (bits : Nat → Bool) :
    (∃ c, spindleNew crc nr img bits = some c) ↔
    ∀ k, k < nr % 2 ^ 32 → bits k = true → Known crc (img k) → ∃ z, Pack.packBlock (metadataBlockType crc (img k)) (img k) = some z := by
  constructor
  · rintro ⟨c, h⟩ k h1 h2 h3
    obtain ⟨z, _, hz⟩ := (new_inv crc nr img bits c h k).1 ⟨h1, h2, h3⟩
    exact ⟨z, hz⟩
  · intro h
    exact readRuns_total crc nr img bits (nr % 2 ^ 32) (Nat.mod_le _ _) h _ 0 [] (runIter_covers bits _ _ 0 (by omega) (by omega))

/-! ## Examples -/

/-- three blocks written by `write_many` of the synchronous engine; the device stops after one block and then fails once: the second block is reported -/
example : (syncWriteMany 1024 (fun _ i _ => if i = 0 then .ok 4096 else if i = 1 then .err (fun _ => none) else .ok 4096)
    [(5, 'a'), (6, 'b'), (7, 'c')] (fun _ => '-')).map (·.2) = some [true, false, true] := by
  unfold syncWriteMany
  rw [show Gaps.findRunsNogap 1024 ([(5, 'a'), (6, 'b'), (7, 'c')].map (·.1)) = [(5, 3)] by decide]
  simp [syncWriteGo, Bio.writeBlocks]
  rw [Bio.vwrite]; simp
  rw [Bio.vwrite]; simp
  rw [Bio.vwrite]; simp
  rw [Bio.vwrite]; simp

/-- the asynchronous engine, asked to write two blocks: both are reported written, none is -/
example : ((asyncWriteMany (fun _ => .done 4096) (fun _ => none) (writeManyReqs [(1, 'x'), (2, 'y')]).reverse (fun _ => '-') [(1, 'x'), (2, 'y')]).2,
    (asyncWriteMany (fun _ => .done 4096) (fun _ => none) (writeManyReqs [(1, 'x'), (2, 'y')]).reverse (fun _ => '-') [(1, 'x'), (2, 'y')]).1.bufs)
    = ([true, true], ['-', '-']) := by decide

/-- reads that the kernel carries out in another order, one of them short -/
example : asyncReadMany (fun i => if i = 1 then .done 512 else .done 4096) (fun _ => some '?') (submit .read [7, 8, 9]).reverse
    (fun b => if b = 7 then 'p' else if b = 8 then 'q' else 'r') ['-', '-', '-'] = [some 'p', none, some 'r'] := by decide

example : runIter (fun k => decide (k ∈ [1, 2, 6])) 9 9 0 = [(false, 0, 1), (true, 1, 3), (false, 3, 6), (true, 6, 7), (false, 7, 9)] := by decide

/-- the spindle engine over three blocks of which the second is a bitmap in use; then a block that does not exist is answered with that bitmap -/
theorem spindle_demo (crc : Bytes → UInt32) : ∃ (img : Nat → Bytes) (c : Cmap), (∀ b, (img b).length = 4096) ∧ spindleNew crc 3 img (fun k => k = 1) = some c ∧
    spindleRead img (fun _ => false) c 1 = some (img 1) ∧ spindleRead img (fun _ => false) c (1 + 2 ^ 32) = some (img 1) ∧
    spindleRead img (fun _ => false) c 2 = none := by
  have hw := (writeChecksum_isSome_iff crc (List.replicate 4096 0) .bitmap).mpr ⟨List.length_replicate .., by decide⟩
  obtain ⟨data, hd⟩ := Option.isSome_iff_exists.mp hw
  obtain ⟨hty, _, hlen, _⟩ := write_then_type crc _ _ _ hd
  have hlen : data.length = 4096 := hlen
  obtain ⟨z, hz, _⟩ := Pack.packLiteral_lossless data (by omega) (by intro h; rw [h] at hlen; simp at hlen)
  have hl : ∀ b, ((fun b => if b = 1 then data else List.replicate 4096 0 : Nat → Bytes) b).length = 4096 := by
    intro b
    show (if b = 1 then data else _).length = _
    by_cases c : b = 1
    · rw [if_pos c]; exact hlen
    · rw [if_neg c]; exact List.length_replicate ..
  obtain ⟨c, hc⟩ := (spindle_new_iff crc 3 (fun b => if b = 1 then data else List.replicate 4096 0) (fun k => k = 1)).mpr (by
    intro k _ hk _
    have : k = 1 := by simpa using hk
    subst this
    show ∃ z, Pack.packBlock (metadataBlockType crc data) data = some z
    rw [hty]
    exact ⟨z, hz⟩)
  have hkn : Known crc data := by unfold Known; rw [hty]; decide
  refine ⟨_, c, hl, hc, spindle_cached crc 3 (by omega) _ _ c hl hc _ 1 (by omega) rfl hkn, ?_, ?_⟩
  · have := spindle_alias_refuted crc 3 (by omega) _ _ c hl hc (fun _ => false) 1 (by omega) rfl hkn 1
    rw [Nat.one_mul] at this
    exact this
  · have := (new_inv crc 3 _ _ c hc 2).2 (fun h => by have := h.2.1; simp at this)
    unfold spindleRead
    rw [Nat.mod_eq_of_lt (by omega), this]
    rfl

end Verif.Eng
