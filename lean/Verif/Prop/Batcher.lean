import Verif.Model.Batcher

/-!
# C09, C10: the write batcher
-/

namespace Verif.Batch

variable {D K : Type}

/-! ## Specification: an array of blocks to which every accepted write is applied immediately -/

/-- apply one call directly to the array -/
def apply (stamp : K → D → Option D) (nr : Nat) (m : Nat → D) : Call D K → (Nat → D)
  | .write l x k _ =>
    match stamp k x with
    | some y => fun b => if b = l ∧ l < nr then y else m b
    | none => m
  | _ => m

/-- apply a history directly, in order -/
def applyAll (stamp : K → D → Option D) (nr : Nat) (m : Nat → D) (cs : List (Call D K)) : Nat → D :=
  cs.foldl (apply stamp nr) m

/-- the device answered every call without a fault and all writes were to existing blocks -/
def Call.Good (nr : Nat) : Call D K → Prop
  | .write l _ _ r => l < nr ∧ r = Resp.good
  | .flush r => r = Resp.good
  | .read _ => True

/-! ## Lemmas -/

/-- the array seen through a queue -/
def overlay (m : Nat → D) : List (Nat × D) → (Nat → D)
  | [] => m
  | (l, x) :: q => overlay (fun b => if b = l then x else m b) q

theorem overlay_append (m : Nat → D) (q : List (Nat × D)) (l : Nat) (x : D) :
    overlay m (q ++ [(l, x)]) = fun b => if b = l then x else overlay m q b := by
  induction q generalizing m with
  | nil => rfl
  | cons p q ih => exact ih _

theorem overlay_lookup (m : Nat → D) (q : List (Nat × D)) (b : Nat) :
    overlay m q b = (lookupRev b q).getD (m b) := by
  induction q generalizing m with
  | nil => rfl
  | cons p q ih =>
    obtain ⟨l, x⟩ := p
    simp only [overlay, lookupRev]
    rw [ih]
    cases h : lookupRev b q with
    | some y => rfl
    | none =>
      by_cases e : b = l
      · subst e; simp
      · simp [e, Ne.symm e]

theorem hit_none {loc : Nat} {x : D} {q : List (Nat × D)} : hit loc x q = none ↔ ∀ p ∈ q, p.1 ≠ loc := by
  induction q with
  | nil => simp [hit]
  | cons p q ih =>
    obtain ⟨l, y⟩ := p
    simp only [hit]
    cases h : hit loc x q with
    | some q' =>
      simp only [List.mem_cons, forall_eq_or_imp, reduceCtorEq, false_iff, not_and]
      intro _ hall
      rw [ih.mpr hall] at h
      cases h
    | none =>
      have := ih.mp h
      by_cases e : l = loc
      · simp [e]
      · simp [e]
        exact fun a b hab => this (a, b) hab

theorem hit_some {loc : Nat} {x : D} {q q' : List (Nat × D)} (h : hit loc x q = some q') :
    q'.map (·.1) = q.map (·.1) ∧ ∀ m : Nat → D, overlay m q' = fun b => if b = loc then x else overlay m q b := by
  induction q generalizing q' with
  | nil => simp [hit] at h
  | cons p q ih =>
    obtain ⟨l, y⟩ := p
    simp only [hit] at h
    cases hh : hit loc x q with
    | some q1 =>
      rw [hh] at h
      simp at h
      subst h
      obtain ⟨i1, i2⟩ := ih hh
      exact ⟨by simp [i1], fun m => i2 _⟩
    | none =>
      rw [hh] at h
      by_cases e : l = loc
      · simp [e] at h
        subst h
        refine ⟨by simp [e], fun m => ?_⟩
        funext b
        have hno := hit_none.mp hh
        have hl : lookupRev loc q = none := by
          clear hh ih
          induction q with
          | nil => rfl
          | cons p q ih =>
            have h1 := hno p (by simp)
            have h2 := ih (fun p hp => hno p (by simp [hp]))
            obtain ⟨a, c⟩ := p
            simp only [lookupRev, h2]
            simpa using h1
        rw [overlay_lookup, overlay_lookup]
        simp only [lookupRev]
        by_cases hb : b = loc
        · subst hb; simp [hl]
        · have hb' : loc ≠ b := Ne.symm hb
          simp [hb, hb', e]
      · simp [e] at h

theorem putMany_good (d : Disk D) (q : List (Nat × D)) (i : Nat) (hq : ∀ p ∈ q, p.1 < d.nr) :
    (d.putMany (fun _ => false) i q).nr = d.nr ∧ (d.putMany (fun _ => false) i q).data = overlay d.data q := by
  induction q generalizing d i with
  | nil => exact ⟨rfl, rfl⟩
  | cons p q ih =>
    obtain ⟨l, x⟩ := p
    simp only [Disk.putMany, overlay, Bool.false_eq_true, if_false]
    have hl := hq (l, x) (by simp)
    obtain ⟨a, b⟩ := ih (d.put l x) (i + 1) (fun p hp => hq p (by simp [hp]))
    refine ⟨a, ?_⟩
    rw [b]
    congr 1
    funext b
    simp [Disk.put, show l < d.nr from hl]

/-- The invariant of a fault-free history: `base` is the disk as of the last flush point, `cur` the array spec. -/
structure Inv (nr : Nat) (cur : Nat → D) (b : Batcher D) : Prop where
  nr_eq : b.disk.nr = nr
  inb : ∀ p ∈ b.queue, p.1 < nr
  nodup : (b.queue.map (·.1)).Nodup
  cur_eq : overlay b.disk.data b.queue = cur

theorem flush_good {nr : Nat} {cur : Nat → D} {b : Batcher D} (h : Inv nr cur b) :
    (b.flush_ Resp.good).2 = true ∧ (b.flush_ Resp.good).1.queue = [] ∧ (b.flush_ Resp.good).1.disk.data = cur ∧
      (b.flush_ Resp.good).1.batchSize = b.batchSize ∧ (b.flush_ Resp.good).1.disk.nr = nr := by
  obtain ⟨a, c⟩ := putMany_good b.disk b.queue 0 (by rw [h.nr_eq]; exact h.inb)
  exact ⟨rfl, rfl, by rw [← h.cur_eq]; exact c, rfl, by rw [← h.nr_eq]; exact a⟩

theorem put_eq (nr : Nat) (m : Nat → D) (l : Nat) (x : D) (h : l < nr) :
    (fun b => if b = l ∧ l < nr then x else m b) = fun b => if b = l then x else m b := by
  funext b; simp [h]

/-- one fault-free call: what happens to the disk, the queue and the result -/
theorem step_good (stamp : K → D → Option D) {nr : Nat} {cur : Nat → D} {b : Batcher D} (h : Inv nr cur b)
    (c : Call D K) (hc : c.Good nr) :
    Inv nr (apply stamp nr cur c) (b.step stamp c).1 ∧ (b.step stamp c).1.batchSize = b.batchSize ∧
    ((b.step stamp c).1.disk.data = b.disk.data ∨ (b.step stamp c).1.disk.data = cur) ∧
    (0 < b.batchSize → b.queue.length ≤ b.batchSize → (b.step stamp c).1.queue.length ≤ b.batchSize) ∧
    (match c with
      | .write _ x k _ => (b.step stamp c).2 = ((stamp k x).isSome, none)
      | .read l => (b.step stamp c).2.2 = if l < nr then some (cur l) else none
      | .flush _ => (b.step stamp c).2 = (true, none) ∧ (b.step stamp c).1.disk.data = cur ∧
          (b.step stamp c).1.queue = []) := by
  cases c with
  | write l x k r =>
    obtain ⟨hl, rfl⟩ := hc
    simp only [Batcher.step, Batcher.write, apply]
    cases hs : stamp k x with
    | none => exact ⟨h, rfl, Or.inl rfl, fun _ hq => hq, rfl⟩
    | some y =>
      simp only
      rw [put_eq nr cur l y hl]
      cases hh : hit l y b.queue with
      | some q =>
        obtain ⟨m1, m2⟩ := hit_some hh
        refine ⟨⟨h.nr_eq, ?_, ?_, ?_⟩, rfl, Or.inl rfl, ?_, rfl⟩
        · intro p hp
          have : p.1 ∈ q.map (·.1) := List.mem_map_of_mem hp
          rw [m1] at this
          obtain ⟨p', hp', e⟩ := List.mem_map.mp this
          exact e ▸ h.inb p' hp'
        · show (q.map _).Nodup; rw [m1]; exact h.nodup
        · show overlay b.disk.data q = _
          rw [m2, h.cur_eq]
        · intro _ hq
          have : q.length = b.queue.length := by simpa using congrArg List.length m1
          show q.length ≤ _; omega
      | none =>
        have hno := hit_none.mp hh
        simp only
        by_cases hfull : b.queue.length = b.batchSize
        · rw [if_pos hfull]
          obtain ⟨f1, f2, f3, f4, f5⟩ := flush_good h
          simp only [f1, f2, if_true, List.nil_append]
          refine ⟨⟨f5, by simpa using hl, by simp, ?_⟩, f4, Or.inr f3, ?_, rfl⟩
          · show overlay (b.flush_ Resp.good).1.disk.data [(l, y)] = _
            rw [f3]; rfl
          · intro hb _; show 1 ≤ _; omega
        · rw [if_neg hfull]
          refine ⟨⟨h.nr_eq, ?_, ?_, ?_⟩, rfl, Or.inl rfl, ?_, rfl⟩
          · intro p hp
            rcases List.mem_append.mp hp with hp | hp
            · exact h.inb p hp
            · simp at hp; subst hp; exact hl
          · show ((b.queue ++ [(l, y)]).map (·.1)).Nodup
            rw [List.map_append, List.nodup_append]
            refine ⟨h.nodup, by simp, ?_⟩
            intro a ha c hc
            obtain ⟨p, hp, rfl⟩ := List.mem_map.mp ha
            simp at hc; subst hc
            exact hno p hp
          · show overlay b.disk.data (b.queue ++ [(l, y)]) = _
            rw [overlay_append, h.cur_eq]
          · intro _ hq
            show (b.queue ++ [(l, y)]).length ≤ _
            simp; omega
  | read l =>
    refine ⟨h, rfl, Or.inl rfl, fun _ hq => hq, ?_⟩
    simp only [Batcher.step, Batcher.read]
    have hcur : cur l = (lookupRev l b.queue).getD (b.disk.data l) := by rw [← h.cur_eq, overlay_lookup]
    rw [hcur, h.nr_eq]
    cases hk : lookupRev l b.queue with
    | none => rfl
    | some y =>
      have : l < nr := by
        have : ∀ q : List (Nat × D), (∀ p ∈ q, p.1 < nr) → lookupRev l q = some y → l < nr := by
          intro q
          induction q with
          | nil => intro _ h; simp [lookupRev] at h
          | cons p q ih =>
            obtain ⟨a, c⟩ := p
            intro h1 h2
            simp only [lookupRev] at h2
            cases hq : lookupRev l q with
            | some z =>
              rw [hq] at h2; simp at h2; subst h2
              exact ih (fun p hp => h1 p (by simp [hp])) hq
            | none =>
              rw [hq] at h2
              by_cases e : a = l
              · subst e; exact h1 (a, c) (by simp)
              · simp [e] at h2
        exact this _ h.inb hk
      simp [this]
  | flush r =>
    have hr : r = Resp.good := hc
    subst hr
    simp only [Batcher.step, Batcher.flush, apply]
    by_cases hq : b.queue = []
    · rw [if_pos hq]
      refine ⟨h, rfl, Or.inl rfl, fun _ hq => hq, rfl, ?_, hq⟩
      have := h.cur_eq
      rw [hq] at this
      exact this
    · rw [if_neg hq]
      obtain ⟨f1, f2, f3, f4, f5⟩ := flush_good h
      refine ⟨⟨f5, by simp [f2], by simp [f2], by rw [f2, f3]; rfl⟩, f4, Or.inr f3, by simp [f2], ?_, f3, f2⟩
      rw [f1]

theorem run_inv (stamp : K → D → Option D) {nr : Nat} (cs : List (Call D K)) {cur : Nat → D} {b : Batcher D}
    (h : Inv nr cur b) (hc : ∀ c ∈ cs, c.Good nr) :
    Inv nr (applyAll stamp nr cur cs) (b.run stamp cs).1 ∧ (b.run stamp cs).1.batchSize = b.batchSize ∧
    (0 < b.batchSize → b.queue.length ≤ b.batchSize → (b.run stamp cs).1.queue.length ≤ b.batchSize) := by
  induction cs generalizing cur b with
  | nil => exact ⟨h, rfl, fun _ h => h⟩
  | cons c cs ih =>
    obtain ⟨h1, h2, -, h4, -⟩ := step_good stamp h c (hc c (by simp))
    obtain ⟨i1, i2, i3⟩ := ih h1 (fun c hm => hc c (by simp [hm]))
    refine ⟨i1, i2.trans h2, fun a b' => ?_⟩
    have := i3 (h2 ▸ a) (by rw [h2]; exact h4 a b')
    rw [h2] at this
    exact this

theorem new_inv (d : Disk D) (bs : Nat) : Inv d.nr d.data (Batcher.new d bs) :=
  ⟨rfl, by simp [Batcher.new], by simp [Batcher.new], rfl⟩

theorem run_append (stamp : K → D → Option D) (b : Batcher D) (cs ds : List (Call D K)) :
    (b.run stamp (cs ++ ds)).1 = ((b.run stamp cs).1.run stamp ds).1 := by
  induction cs generalizing b with
  | nil => rfl
  | cons c cs ih => exact ih _

/-! ## Theorems -/

/-- C09.  After any history of writes, reads and flushes on a device without faults, a read returns what the
array of immediately applied writes holds (an error only beyond the end of the device). -/
theorem batcher_reads_latest (stamp : K → D → Option D) (d : Disk D) (bs : Nat) (cs : List (Call D K))
    (hc : ∀ c ∈ cs, c.Good d.nr) (l : Nat) :
    ((Batcher.new d bs).run stamp cs).1.read l =
      if l < d.nr then some (applyAll stamp d.nr d.data cs l) else none := by
  have h := (run_inv stamp cs (new_inv d bs) hc).1
  exact (step_good stamp h (.read l) trivial).2.2.2.2

/-- C10, flush: after a flush the disk is the sequential result of all writes, and nothing is queued. -/
theorem batcher_flush_complete (stamp : K → D → Option D) (d : Disk D) (bs : Nat) (cs : List (Call D K))
    (hc : ∀ c ∈ cs, c.Good d.nr) :
    let b := ((Batcher.new d bs).run stamp (cs ++ [.flush Resp.good])).1
    b.disk.data = applyAll stamp d.nr d.data cs ∧ b.queue = [] := by
  intro b
  have h := (run_inv stamp cs (new_inv d bs) hc).1
  have hs := (step_good stamp h (.flush Resp.good) rfl).2.2.2.2
  have : b = (((Batcher.new d bs).run stamp cs).1.step stamp (.flush Resp.good)).1 := by
    show ((Batcher.new d bs).run stamp (cs ++ [.flush Resp.good])).1 = _
    rw [run_append]; rfl
  rw [this]
  exact ⟨hs.2.1, hs.2.2⟩

/-- C10, crash between calls: at every point the disk is exactly the sequential result of some prefix of the
history (writes are never reordered past a flush), everything after the last explicit flush may be lost but
nothing before it, and what is lost concerns at most `batch_size` distinct blocks. -/
theorem batcher_crash_prefix (stamp : K → D → Option D) (d : Disk D) (bs : Nat) (cs : List (Call D K))
    (hc : ∀ c ∈ cs, c.Good d.nr) :
    ∃ done rest, cs = done ++ rest ∧
      ((Batcher.new d bs).run stamp cs).1.disk.data = applyAll stamp d.nr d.data done ∧
      (∀ c ∈ rest.drop 1, ∀ r, c ≠ Call.flush r) ∧
      (0 < bs → ∃ lost : List Nat, lost.length ≤ bs ∧ ∀ l, l ∉ lost →
        ((Batcher.new d bs).run stamp cs).1.disk.data l = applyAll stamp d.nr d.data cs l) := by
  have hfin := run_inv stamp cs (new_inv d bs) hc
  have hlost : 0 < bs → ∃ lost : List Nat, lost.length ≤ bs ∧ ∀ l, l ∉ lost →
        ((Batcher.new d bs).run stamp cs).1.disk.data l = applyAll stamp d.nr d.data cs l := by
    intro h0
    refine ⟨((Batcher.new d bs).run stamp cs).1.queue.map (·.1), ?_, ?_⟩
    · have := hfin.2.2 h0 (by simp [Batcher.new])
      simpa [Batcher.new] using this
    · intro l hl
      rw [← hfin.1.cur_eq, overlay_lookup]
      have : ∀ q : List (Nat × D), l ∉ q.map (·.1) → lookupRev l q = none := by
        intro q
        induction q with
        | nil => intro _; rfl
        | cons p q ih =>
          obtain ⟨a, x⟩ := p
          intro h
          simp only [List.map_cons, List.mem_cons, not_or] at h
          simp [lookupRev, ih h.2, Ne.symm h.1]
      rw [this _ hl]; rfl
  suffices h : ∃ done rest, cs = done ++ rest ∧
      ((Batcher.new d bs).run stamp cs).1.disk.data = applyAll stamp d.nr d.data done ∧
      (∀ c ∈ rest.drop 1, ∀ r, c ≠ Call.flush r) by
    obtain ⟨a, b, h1, h2, h3⟩ := h
    exact ⟨a, b, h1, h2, h3, hlost⟩
  clear hfin hlost
  -- induction from the right
  have key : ∀ n, ∀ cs : List (Call D K), cs.length = n → (∀ c ∈ cs, c.Good d.nr) → ∃ done rest, cs = done ++ rest ∧
      ((Batcher.new d bs).run stamp cs).1.disk.data = applyAll stamp d.nr d.data done ∧
      (∀ c ∈ rest.drop 1, ∀ r, c ≠ Call.flush r) := by
    intro n
    induction n with
    | zero =>
      intro cs hn _
      have : cs = [] := List.length_eq_zero_iff.mp hn
      subst this
      exact ⟨[], [], rfl, rfl, by simp⟩
    | succ n ih =>
      intro cs hn hg
      rcases List.eq_nil_or_concat cs with rfl | ⟨cs', c, rfl⟩
      · simp at hn
      rw [List.concat_eq_append] at *
      have hg' : ∀ c ∈ cs', c.Good d.nr := fun c hm => hg c (by simp [hm])
      obtain ⟨a, b, e1, e2, e3⟩ := ih cs' (by simpa using hn) hg'
      have hinv := (run_inv stamp cs' (new_inv d bs) hg').1
      obtain ⟨-, -, s3, -, s5⟩ := step_good stamp hinv c (hg c (by simp))
      have hrun : ((Batcher.new d bs).run stamp (cs' ++ [c])).1 =
          (((Batcher.new d bs).run stamp cs').1.step stamp c).1 := by rw [run_append]; rfl
      rw [hrun]
      rcases s3 with s3 | s3
      · by_cases hf : ∃ r, c = .flush r
        · obtain ⟨r, rfl⟩ := hf
          exact ⟨cs', [.flush r], rfl, s5.2.1, by simp⟩
        · by_cases hb : b = []
          · subst hb
            refine ⟨a, [c], by rw [e1]; simp, s3.trans e2, by simp⟩
          · refine ⟨a, b ++ [c], by rw [e1]; simp, s3.trans e2, ?_⟩
            rw [List.drop_append_of_le_length (by
              have := List.length_pos_iff.mpr hb; omega)]
            intro c' hc'
            rcases List.mem_append.mp hc' with h | h
            · exact e3 c' h
            · simp at h; subst h; exact fun r hr => hf ⟨r, hr⟩
      · exact ⟨cs', [c], rfl, s3, by simp⟩
  exact key cs.length cs rfl hc

/-- C10, crash in the middle of a flush: whatever subset of the queued blocks reached the device, every block
holds either its value as of the last flush point or its latest value. -/
theorem batcher_crash_in_flush (stamp : K → D → Option D) (d : Disk D) (bs : Nat) (cs : List (Call D K))
    (hc : ∀ c ∈ cs, c.Good d.nr) (r : Resp) (l : Nat) :
    let b := ((Batcher.new d bs).run stamp cs).1
    (b.flush_ r).1.disk.data l = b.disk.data l ∨
      (b.flush_ r).1.disk.data l = applyAll stamp d.nr d.data cs l := by
  intro b
  have h : Inv d.nr _ b := (run_inv stamp cs (new_inv d bs) hc).1
  rw [← h.cur_eq]
  have key : ∀ (q : List (Nat × D)) (i : Nat) (dk : Disk D), (q.map (·.1)).Nodup →
      (dk.putMany r.skip i q).data l = dk.data l ∨ (dk.putMany r.skip i q).data l = overlay dk.data q l := by
    intro q
    induction q with
    | nil => intro i dk _; exact Or.inl rfl
    | cons p q ih =>
      obtain ⟨a, x⟩ := p
      intro i dk hnd
      simp only [List.map_cons, List.nodup_cons] at hnd
      simp only [Disk.putMany, overlay]
      have hla : ∀ q : List (Nat × D), l ∉ q.map (·.1) → lookupRev l q = none := by
        intro q
        induction q with
        | nil => intro _; rfl
        | cons p q ih =>
          obtain ⟨a, x⟩ := p
          intro h
          simp only [List.map_cons, List.mem_cons, not_or] at h
          simp [lookupRev, ih h.2, Ne.symm h.1]
      have hrest := ih (i + 1) (if r.skip i = true then dk else dk.put a x) hnd.2
      rw [overlay_lookup] at hrest ⊢
      by_cases hal : l = a
      · subst hal
        have hn := hla q hnd.1
        rw [hn] at hrest ⊢
        simp only [Option.getD_none, or_self] at hrest
        rw [hrest]
        by_cases hs : r.skip i = true
        · simp [hs]
        · simp only [hs]
          by_cases hlt : l < dk.nr
          · simp [Disk.put, hlt]
          · simp [Disk.put, hlt]
      · have hd : (if r.skip i = true then dk else dk.put a x).data l = dk.data l := by
          by_cases hs : r.skip i = true <;> simp [hs, Disk.put, hal]
        rw [hd] at hrest
        simpa [hal] using hrest
  exact key b.queue 0 b.disk h.nodup

/-- C10 fails on a device that reports a per-block write error: `flush` answers success, the queue is dropped
and the block keeps its old contents (`src/write_batcher.rs:118-121` ignores the per-block results). -/
theorem batcher_flush_block_error_refuted :
    let b := ((Batcher.new (D := Nat) ⟨1, fun _ => 0⟩ 8).write (K := Unit) (fun _ x => some x) 0 7 () Resp.good).1
    let p := b.flush ⟨false, fun _ => true⟩
    p.2 = true ∧ p.1.queue = [] ∧ p.1.disk.data 0 = 0 ∧ p.1.read 0 = some 0 := by
  refine ⟨rfl, rfl, rfl, rfl⟩

/-- non-vacuity: a history with overwrites and an implicit flush -/
example :
    let cs : List (Call Nat Unit) := [.write 0 1 () Resp.good, .write 1 2 () Resp.good, .write 0 3 () Resp.good,
      .write 2 4 () Resp.good, .read 0, .write 0 5 () Resp.good]
    let b := ((Batcher.new ⟨3, fun _ => 0⟩ 2).run (fun _ x => some x) cs).1
    (∀ c ∈ cs, c.Good 3) ∧ b.disk.data 0 = 3 ∧ b.read 0 = some 5 ∧ b.queue = [(2, 4), (0, 5)] := by
  refine ⟨?_, rfl, rfl, rfl⟩
  intro c hc
  simp at hc
  rcases hc with rfl | rfl | rfl | rfl | rfl | rfl <;> simp [Call.Good]

end Verif.Batch
