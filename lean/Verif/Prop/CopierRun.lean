import Verif.Prop.Copier

/-!
# C40: every interleaving of the two threads
-/

namespace Verif.Cop

variable {β : Type}

/-! ## Specification -/

/-- What a finished copy guarantees, for the contents `store0` of the devices before: every operation was copied or is listed as an error, nothing but the
destinations has changed, where reading failed the destination has not changed either, and the number of copied blocks is right. -/
structure Copied (c : Cfg) (ops : List CopyOp) (store0 : Loc → β) (store : Loc → β) (stats : Stats) : Prop where
  each : ∀ op ∈ ops, op ∈ stats.readErrors ∨ op ∈ stats.writeErrors ∨ store (c.dstLoc op.dst) = store0 (c.srcLoc op.src)
  frame : ∀ l, (∀ op ∈ ops, l ≠ c.dstLoc op.dst) → store l = store0 l
  unread : ∀ op ∈ stats.readErrors, store (c.dstLoc op.dst) = store0 (c.dstLoc op.dst)
  errors : (∀ op ∈ stats.readErrors ++ stats.writeErrors, op ∈ ops) ∧ (stats.readErrors ++ stats.writeErrors).Nodup
  count : stats.nrCopied + (stats.readErrors ++ stats.writeErrors).length = ops.length

/-- no two operations have the same destination, and no destination is a source -/
structure Separate (c : Cfg) (ops : List CopyOp) : Prop where
  dst : (ops.map fun op => c.dstLoc op.dst).Nodup
  src : ∀ a ∈ ops, ∀ b ∈ ops, c.srcLoc a.src ≠ c.dstLoc b.dst

/-! ## The invariant -/

/-- the chunk that is being written -/
def wOps : Writer β → List CopyOp
  | .writing m _ _ => m.ops
  | _ => []

/-- the chunk in the channel -/
def qOps : Option (Msg β) → List CopyOp
  | some m => m.ops
  | none => []

/-- the chunk that was read -/
def sOps : Reader β → List CopyOp
  | .sending m => m.ops
  | _ => []

/-- the chunk that is being read or was read -/
def rOps : Reader β → List CopyOp
  | .reading ops _ _ _ => ops
  | .sending m => m.ops
  | _ => []

/-- blocks that were read and are not yet accounted for -/
def inFlight (s : St β) : Nat :=
  (match s.writer with | .writing m _ _ => m.ok.length | _ => 0) + (match s.queue with | some m => m.ok.length | none => 0) +
    (match s.reader with | .sending m => m.ok.length | _ => 0)

/-- a chunk that was read -/
structure MsgOK (c : Cfg) (store0 : Loc → β) (re : List CopyOp) (m : Msg β) : Prop where
  nodup : m.ok.Nodup
  good : ∀ i ∈ m.ok, ∃ op, m.ops[i]? = some op ∧ m.buf[i]? = some (store0 (c.srcLoc op.src)) ∧ op ∉ re
  bad : ∀ i op, m.ops[i]? = some op → i ∉ m.ok → op ∈ re

/-- a chunk that is being read -/
structure ReadingOK (c : Cfg) (store0 : Loc → β) (ops : List CopyOp) (todo : List Op) (buf : List β) (ok : List Nat) : Prop where
  len : buf.length = ops.length
  plan : Plan ops (·.src) todo
  nodup : ok.Nodup
  fresh : ∀ i ∈ ok, i ∉ idx todo
  good : ∀ i ∈ ok, ∃ op, ops[i]? = some op ∧ buf[i]? = some (store0 (c.srcLoc op.src))

/-- a chunk that is being written -/
structure WritingOK (c : Cfg) (store0 store : Loc → β) (m : Msg β) (todo : List Op) (ok : List Nat) : Prop where
  plan : Plan m.ops (·.dst) todo
  nodup : ok.Nodup
  sub : ∀ i ∈ ok, i ∈ m.ok
  todoOk : ∀ i ∈ idx todo, i ∈ m.ok
  fresh : ∀ i ∈ ok, i ∉ idx todo
  good : ∀ i ∈ ok, ∃ op, m.ops[i]? = some op ∧ store (c.dstLoc op.dst) = store0 (c.srcLoc op.src)

/-- the invariant; `done` are the operations that are accounted for -/
structure Inv (c : Cfg) (ops : List CopyOp) (store0 : Loc → β) (s : St β) (done : List CopyOp) : Prop where
  all : done ++ (wOps s.writer ++ (qOps s.queue ++ (rOps s.reader ++ s.chunks.flatten))) = ops
  frame : ∀ l, s.store l ≠ store0 l → ∃ op, (op ∈ done ∨ op ∈ wOps s.writer) ∧ l = c.dstLoc op.dst ∧ op ∉ s.stats.readErrors
  each : ∀ op ∈ done, op ∈ s.stats.readErrors ∨ op ∈ s.stats.writeErrors ∨ s.store (c.dstLoc op.dst) = store0 (c.srcLoc op.src)
  rmem : ∀ op ∈ s.stats.readErrors, op ∈ done ∨ op ∈ wOps s.writer ∨ op ∈ qOps s.queue ∨ op ∈ sOps s.reader
  wmem : ∀ op ∈ s.stats.writeErrors, op ∈ done ∧ op ∉ s.stats.readErrors
  rnodup : s.stats.readErrors.Nodup
  wnodup : s.stats.writeErrors.Nodup
  count : s.stats.nrCopied + s.stats.writeErrors.length + s.stats.readErrors.length + inFlight s =
    done.length + (wOps s.writer).length + (qOps s.queue).length + (sOps s.reader).length
  reading : ∀ o todo buf ok, s.reader = .reading o todo buf ok → ReadingOK c store0 o todo buf ok
  sending : ∀ m, s.reader = .sending m → MsgOK c store0 s.stats.readErrors m
  queued : ∀ m, s.queue = some m → MsgOK c store0 s.stats.readErrors m
  writing : ∀ m todo ok, s.writer = .writing m todo ok → MsgOK c store0 s.stats.readErrors m ∧ WritingOK c store0 s.store m todo ok
  closed : s.reader = .done → s.chunks = []
  stopped : s.writer = .stopped → s.reader = .done ∧ s.queue = none

theorem getElem?_map_inj {α γ : Type} {l : List α} {f : α → γ} (hn : (l.map f).Nodup) {i j : Nat} {a b : α} (ha : l[i]? = some a) (hb : l[j]? = some b)
    (e : f a = f b) : i = j := by
  refine (List.getElem?_inj (l := l.map f) ?_ hn).mp ?_
  · rw [List.length_map]; exact (List.getElem?_eq_some_iff.mp ha).1
  · rw [List.getElem?_map, List.getElem?_map, ha, hb]
    simp only [Option.map_some, e]

theorem get_mem {α : Type} {l : List α} {i : Nat} {a : α} (h : l[i]? = some a) : a ∈ l := List.mem_iff_getElem?.mpr ⟨i, h⟩

/-- a source has the content it had before -/
theorem Inv.source {c : Cfg} {ops : List CopyOp} {store0 : Loc → β} {s : St β} {done : List CopyOp} (hs : Separate c ops) (h : Inv c ops store0 s done) :
    ∀ op ∈ ops, s.store (c.srcLoc op.src) = store0 (c.srcLoc op.src) := by
  intro op ho
  by_contra hne
  obtain ⟨op', h1, h2, -⟩ := h.frame _ hne
  refine hs.src op ho op' ?_ h2
  rw [← h.all]
  rcases h1 with h1 | h1 <;> simp [h1]

theorem chunksOf_flatten (n : Nat) (hn : 0 < n) : ∀ (fuel : Nat) (l : List CopyOp), l.length ≤ fuel → (chunksOf n fuel l).flatten = l := by
  intro fuel
  induction fuel with
  | zero => intro l h; rw [List.length_eq_zero_iff.mp (show l.length = 0 by omega)]; rfl
  | succ fuel ih =>
    intro l h
    cases l with
    | nil => rfl
    | cons x l =>
      show ((x :: l).take n :: chunksOf n fuel ((x :: l).drop n)).flatten = _
      rw [List.flatten_cons, ih _ (by rw [List.length_drop, List.length_cons]; rw [List.length_cons] at h; omega), List.take_append_drop]

theorem init_inv (c : Cfg) (hb : 0 < c.blockSize) (hc : c.blockSize ≤ c.bufferSize) (ops : List CopyOp) (store0 : Loc → β) :
    Inv c ops store0 (St.init c ops store0) [] where
  all := by
    simp only [St.init, wOps, qOps, rOps, List.nil_append]
    exact chunksOf_flatten _ (Nat.div_pos hc hb) _ _ (Nat.le_refl _)
  frame := fun l h => absurd rfl h
  each := by intro op h; cases h
  rmem := by intro op h; cases h
  wmem := by intro op h; cases h
  rnodup := List.nodup_nil
  wnodup := List.nodup_nil
  count := rfl
  reading := by intro _ _ _ _ h; cases h
  sending := by intro _ h; cases h
  queued := by intro _ h; cases h
  writing := by intro _ _ _ h; cases h
  closed := by intro h; cases h
  stopped := by intro h; cases h

theorem MsgOK.bound {c : Cfg} {store0 : Loc → β} {re : List CopyOp} {m : Msg β} (h : MsgOK c store0 re m) : ∀ i ∈ m.ok, i < m.ops.length := by
  intro i hi
  obtain ⟨op, h1, -⟩ := h.good i hi
  exact (List.getElem?_eq_some_iff.mp h1).1

/-- more read errors, of other operations -/
theorem MsgOK.more {c : Cfg} {store0 : Loc → β} {re new : List CopyOp} {m : Msg β} (h : MsgOK c store0 re m) (hn : ∀ op ∈ new, op ∉ m.ops) : MsgOK c store0 (re ++ new) m := by
  refine ⟨h.nodup, ?_, ?_⟩
  · intro i hi
    obtain ⟨op, h1, h2, h3⟩ := h.good i hi
    refine ⟨op, h1, h2, ?_⟩
    rw [List.mem_append, not_or]
    exact ⟨h3, fun h4 => hn op h4 (get_mem h1)⟩
  · intro i op h1 h2
    exact List.mem_append.mpr (Or.inl (h.bad i op h1 h2))

theorem step_inv {c : Cfg} {ops : List CopyOp} {store0 : Loc → β} (hs : Separate c ops) {s t : St β} {done : List CopyOp} (h : Inv c ops store0 s done)
    (hst : Step c s t) : ∃ done', Inv c ops store0 t done' := by
  have hnd : ops.Nodup := (List.pairwise_map.mp hs.dst).imp (fun {a b} (h : c.dstLoc a.dst ≠ c.dstLoc b.dst) (e : a = b) => h (by rw [e]))
  have hdst := hs.dst
  cases hst with
  | chunk o rest buf h1 h2 h3 =>
    obtain ⟨p1, p2⟩ := readOps_plan o
    have hall := h.all
    rw [h2, h1] at hall
    refine ⟨done, {
      all := ?_, frame := h.frame, each := h.each, rmem := ?_, wmem := h.wmem, rnodup := h.rnodup, wnodup := h.wnodup, count := ?_, reading := ?_,
      sending := (by intro _ h; cases h), queued := h.queued, writing := h.writing, closed := (by intro h; cases h), stopped := ?_ }⟩
    · simpa [rOps] using hall
    · intro op hop
      have := h.rmem op hop
      rw [h1] at this
      simpa [sOps] using this
    · have := h.count
      simp only [inFlight, h1, sOps] at this ⊢
      exact this
    · intro o' todo buf' ok e
      cases e
      exact ⟨h3, p1, List.nodup_nil, (by intro i hi; cases hi), (by intro i hi; cases hi)⟩
    · intro e
      have := (h.stopped e).1
      rw [h1] at this
      cases this
  | read o op todo buf ok data res h1 h2 =>
    obtain ⟨r1, r2, r3, r4, r5⟩ := h.reading _ _ _ _ h1
    obtain ⟨q1, q2, q3⟩ := r2.split
    obtain ⟨m1, m2⟩ := markOk_spec op.indexes res ok r3
    have hall := h.all
    rw [h1] at hall
    have hmem : ∀ x ∈ o, x ∈ ops := by intro x hx; rw [← hall]; simp [rOps, hx]
    refine ⟨done, {
      all := ?_, frame := h.frame, each := h.each, rmem := ?_, wmem := h.wmem, rnodup := h.rnodup, wnodup := h.wnodup, count := ?_, reading := ?_,
      sending := (by intro _ h; cases h), queued := h.queued, writing := h.writing, closed := (by intro h; cases h), stopped := ?_ }⟩
    · simpa [rOps] using hall
    · intro x hx
      have := h.rmem x hx
      rw [h1] at this
      simpa [sOps] using this
    · have := h.count
      simp only [inFlight, h1, sOps] at this ⊢
      exact this
    · intro o' todo' buf' ok' e
      cases e
      refine ⟨by rw [fill, fill_length]; exact r1, r2.tail, m1, ?_, ?_⟩
      · intro i hi
        rcases (m2 i).mp hi with hi | ⟨rs, j, -, -, hj⟩
        · intro hm
          exact r4 i hi (by rw [q3]; exact List.mem_append.mpr (Or.inr hm))
        · exact q2 i (get_mem hj)
      · intro i hi
        rcases (m2 i).mp hi with hi | ⟨rs, j, e1, e2, hj⟩
        · obtain ⟨x, x1, x2⟩ := r5 i hi
          refine ⟨x, x1, ?_⟩
          rw [fill, fill_other _ _ _ ?_]
          · exact x2
          · intro p hp e
            have : p.1 ∈ op.indexes := (List.of_mem_zip hp).1
            exact r4 i hi (by rw [q3]; exact List.mem_append.mpr (Or.inl (e ▸ this)))
        · obtain ⟨x, x1, x2⟩ := r2.head hj
          refine ⟨x, x1, ?_⟩
          have hd := (h2.2 rs e1).2 j e2
          refine fill_get q1 ?_ hj ?_
          · intro k hk
            obtain ⟨j', hj'⟩ := List.mem_iff_getElem?.mp hk
            obtain ⟨y, y1, -⟩ := r2.head hj'
            rw [r1]
            exact (List.getElem?_eq_some_iff.mp y1).1
          · rw [hd]
            show some (s.store (c.srcLoc (op.bbegin + j))) = _
            rw [x2, h.source hs x (hmem x (get_mem x1))]
    · intro e
      have := (h.stopped e).1
      rw [h1] at this
      cases this
  | readDone o buf ok h1 =>
    obtain ⟨r1, r2, r3, r4, r5⟩ := h.reading _ _ _ _ h1
    have hb : ∀ i ∈ ok, i < o.length := by
      intro i hi
      obtain ⟨x, x1, -⟩ := r5 i hi
      exact (List.getElem?_eq_some_iff.mp x1).1
    obtain ⟨u1, u2⟩ := unmarked_length o ok r3 hb
    rw [addRead_eq _ _ _ r3 hb]
    have hall := h.all
    rw [h1] at hall
    simp only [rOps] at hall
    have hnd' := hnd
    rw [← hall] at hnd'
    simp only [List.nodup_append, List.mem_append] at hnd'
    obtain ⟨-, ⟨-, ⟨-, ⟨n1, -, -⟩, n2⟩, n3⟩, n4⟩ := hnd'
    -- the operations of this chunk are in no other
    have hfd : ∀ x ∈ o, x ∉ done := fun x hx hd => n4 x hd x (Or.inr (Or.inr (Or.inl hx))) rfl
    have hfw : ∀ x ∈ o, x ∉ wOps s.writer := fun x hx hd => n3 x hd x (Or.inr (Or.inl hx)) rfl
    have hfq : ∀ x ∈ o, x ∉ qOps s.queue := fun x hx hd => n2 x hd x (Or.inl hx) rfl
    have hfr : ∀ x ∈ o, x ∉ s.stats.readErrors := by
      intro x hx hr
      have := h.rmem x hr
      rw [h1] at this
      rcases this with h | h | h | h
      · exact hfd x hx h
      · exact hfw x hx h
      · exact hfq x hx h
      · cases h
    have huo : ∀ x ∈ unmarked o ok, x ∈ o := fun x hx => u2.subset hx
    refine ⟨done, {
      all := (by simpa [rOps] using hall), frame := ?_, each := ?_, rmem := ?_, wmem := ?_, rnodup := ?_, wnodup := h.wnodup, count := ?_,
      reading := (by intro _ _ _ _ h; cases h), sending := ?_, queued := ?_, writing := ?_, closed := (by intro h; cases h), stopped := ?_ }⟩
    · intro l hl
      obtain ⟨x, x1, x2, x3⟩ := h.frame l hl
      refine ⟨x, x1, x2, ?_⟩
      simp only [List.mem_append, not_or]
      refine ⟨x3, fun hu => ?_⟩
      rcases x1 with x1 | x1
      · exact hfd x (huo x hu) x1
      · exact hfw x (huo x hu) x1
    · intro x hx
      rcases h.each x hx with h | h | h
      · exact Or.inl (List.mem_append.mpr (Or.inl h))
      · exact Or.inr (Or.inl h)
      · exact Or.inr (Or.inr h)
    · intro x hx
      rcases List.mem_append.mp hx with hx | hx
      · have := h.rmem x hx
        rw [h1] at this
        rcases this with h | h | h | h
        · exact Or.inl h
        · exact Or.inr (Or.inl h)
        · exact Or.inr (Or.inr (Or.inl h))
        · cases h
      · exact Or.inr (Or.inr (Or.inr (huo x hx)))
    · intro x hx
      obtain ⟨w1, w2⟩ := h.wmem x hx
      refine ⟨w1, ?_⟩
      simp only [List.mem_append, not_or]
      exact ⟨w2, fun hu => hfd x (huo x hu) w1⟩
    · refine List.nodup_append.mpr ⟨h.rnodup, n1.sublist u2, ?_⟩
      intro a ha b hb e
      exact hfr b (huo b hb) (e ▸ ha)
    · have := h.count
      simp only [inFlight, h1, sOps, List.length_append] at this ⊢
      simp only [List.length_nil] at this
      omega
    · intro m e
      cases e
      refine ⟨r3, ?_, ?_⟩
      · intro i hi
        obtain ⟨x, x1, x2⟩ := r5 i hi
        refine ⟨x, x1, x2, ?_⟩
        simp only [List.mem_append, not_or]
        refine ⟨hfr x (get_mem x1), fun hu => ?_⟩
        obtain ⟨j, j1, j2⟩ := (mem_unmarked o ok x).mp hu
        have hli : i < o.length := (List.getElem?_eq_some_iff.mp x1).1
        have := (List.getElem?_inj hli n1).mp (x1.trans j1.symm)
        exact j2 (this ▸ hi)
      · intro i x x1 x2
        exact List.mem_append.mpr (Or.inr ((mem_unmarked o ok x).mpr ⟨i, x1, x2⟩))
    · intro m hm
      refine (h.queued m hm).more ?_
      intro x hx hq
      exact hfq x (huo x hx) (by rw [hm]; exact hq)
    · intro m todo wok hm
      obtain ⟨w1, w2⟩ := h.writing m todo wok hm
      refine ⟨w1.more ?_, w2⟩
      intro x hx hq
      exact hfw x (huo x hx) (by rw [hm]; exact hq)
    · intro e
      have := (h.stopped e).1
      rw [h1] at this
      cases this
  | send m h1 h2 =>
    have hall := h.all
    rw [h1, h2] at hall
    refine ⟨done, {
      all := (by simpa [rOps, qOps] using hall), frame := h.frame, each := h.each, rmem := ?_, wmem := h.wmem, rnodup := h.rnodup, wnodup := h.wnodup, count := ?_,
      reading := (by intro _ _ _ _ h; cases h), sending := (by intro _ h; cases h), queued := ?_, writing := h.writing, closed := (by intro h; cases h), stopped := ?_ }⟩
    · intro x hx
      have := h.rmem x hx
      rw [h1, h2] at this
      rcases this with h | h | h | h
      · exact Or.inl h
      · exact Or.inr (Or.inl h)
      · cases h
      · exact Or.inr (Or.inr (Or.inl h))
    · have := h.count
      simp only [inFlight, h1, h2, sOps, qOps, List.length_nil] at this ⊢
      omega
    · intro m' e
      cases e
      exact h.sending m h1
    · intro e
      have := (h.stopped e).1
      rw [h1] at this
      cases this
  | drop h1 h2 =>
    have hall := h.all
    rw [h1] at hall
    refine ⟨done, {
      all := (by simpa [rOps] using hall), frame := h.frame, each := h.each, rmem := ?_, wmem := h.wmem, rnodup := h.rnodup, wnodup := h.wnodup, count := ?_,
      reading := (by intro _ _ _ _ h; cases h), sending := (by intro _ h; cases h), queued := h.queued, writing := h.writing, closed := fun _ => h2, stopped := ?_ }⟩
    · intro x hx
      have := h.rmem x hx
      rw [h1] at this
      simpa [sOps] using this
    · have := h.count
      simp only [inFlight, h1, sOps] at this ⊢
      exact this
    · intro e
      exact ⟨rfl, (h.stopped e).2⟩
  | recv m h1 h2 =>
    have hall := h.all
    rw [h1, h2] at hall
    obtain ⟨p1, p2⟩ := writeOps_plan m.ops m.ok
    have hm := h.queued m h2
    refine ⟨done, {
      all := (by simpa [wOps, qOps] using hall), frame := ?_, each := h.each, rmem := ?_, wmem := h.wmem, rnodup := h.rnodup, wnodup := h.wnodup, count := ?_,
      reading := h.reading, sending := h.sending, queued := (by intro _ h; cases h), writing := ?_, closed := h.closed, stopped := (by intro h; cases h) }⟩
    · intro l hl
      obtain ⟨x, x1, x2⟩ := h.frame l hl
      rw [h1] at x1
      rcases x1 with x1 | x1
      · exact ⟨x, Or.inl x1, x2⟩
      · cases x1
    · intro x hx
      have := h.rmem x hx
      rw [h1, h2] at this
      rcases this with h | h | h | h
      · exact Or.inl h
      · cases h
      · exact Or.inr (Or.inl h)
      · exact Or.inr (Or.inr (Or.inr h))
    · have := h.count
      simp only [inFlight, h1, h2, wOps, qOps, List.length_nil] at this ⊢
      omega
    · intro m' todo ok e
      cases e
      refine ⟨hm, p1, List.nodup_nil, (by intro i hi; cases hi), ?_, (by intro i hi; cases hi), (by intro i hi; cases hi)⟩
      intro i hi
      exact ((p2 i).mp hi).1
  | write m op todo ok bufs store' res h1 h2 h3 h4 =>
    obtain ⟨hm, w1, w2, w3, w4, w5, w6⟩ := h.writing _ _ _ h1
    obtain ⟨q1, q2, q3⟩ := w1.split
    obtain ⟨m1, m2⟩ := markOk_spec op.indexes res ok w2
    have hwf := (w1.wf op (by simp)).1
    have hall := h.all
    rw [h1] at hall
    simp only [wOps] at hall
    have hdst' := hdst
    rw [← hall, List.map_append, List.map_append, List.nodup_append] at hdst'
    obtain ⟨-, hdm, hdd⟩ := hdst'
    rw [List.nodup_append] at hdm
    have hdm := hdm.1
    have hdw : ∀ a ∈ done, ∀ b ∈ m.ops, c.dstLoc a.dst ≠ c.dstLoc b.dst := by
      intro a ha b hb
      exact hdd _ (List.mem_map.mpr ⟨a, ha, rfl⟩) _ (List.mem_append.mpr (Or.inl (List.mem_map.mpr ⟨b, hb, rfl⟩)))
    -- the blocks of this call
    have hblk : ∀ j, j < bufs.length → ∃ i x, op.indexes[j]? = some i ∧ m.ops[i]? = some x ∧ op.bbegin + j = x.dst ∧ i ∈ m.ok := by
      intro j hj
      have hj' : j < op.indexes.length := by omega
      obtain ⟨x, x1, x2⟩ := w1.head (j := j) (i := op.indexes[j]) (by simp [hj'])
      refine ⟨_, x, by simp [hj'], x1, x2, w4 _ ?_⟩
      rw [q3]
      exact List.mem_append.mpr (Or.inl (List.getElem_mem hj'))
    have hkeep : ∀ l, (∀ j, j < bufs.length → ∀ i x, op.indexes[j]? = some i → m.ops[i]? = some x → l ≠ c.dstLoc x.dst) → store' l = s.store l := by
      intro l hl
      refine h4.1 l ?_
      intro j hj e
      obtain ⟨i, x, e1, e2, e3, -⟩ := hblk j hj
      exact hl j hj i x e1 e2 (by rw [e]; show c.dstLoc (op.bbegin + j) = _; rw [e3])
    refine ⟨done, {
      all := (by simpa [wOps] using hall), frame := ?_, each := ?_, rmem := ?_, wmem := h.wmem, rnodup := h.rnodup, wnodup := h.wnodup, count := ?_,
      reading := h.reading, sending := h.sending, queued := h.queued, writing := ?_, closed := h.closed, stopped := (by intro h; cases h) }⟩
    · intro l hl
      by_cases hk : ∃ j, j < bufs.length ∧ l = c.dstLoc (op.bbegin + j)
      · obtain ⟨j, hj, e⟩ := hk
        obtain ⟨i, x, -, e2, e3, e4⟩ := hblk j hj
        refine ⟨x, Or.inr (get_mem e2), by rw [e, e3], ?_⟩
        obtain ⟨y, y1, -, y2⟩ := hm.good i e4
        rw [e2] at y1
        cases y1
        exact y2
      · have : store' l = s.store l := h4.1 l (fun j hj e => hk ⟨j, hj, e⟩)
        have hl : s.store l ≠ store0 l := by rw [← this]; exact hl
        obtain ⟨x, x1, x2⟩ := h.frame l hl
        rw [h1] at x1
        exact ⟨x, x1, x2⟩
    · intro x hx
      rcases h.each x hx with h | h | h
      · exact Or.inl h
      · exact Or.inr (Or.inl h)
      · refine Or.inr (Or.inr ?_)
        show store' _ = _
        rw [hkeep]
        · exact h
        · intro j hj i y _ hy
          exact hdw x hx y (get_mem hy)
    · intro x hx
      have := h.rmem x hx
      rw [h1] at this
      exact this
    · have := h.count
      simp only [inFlight, h1, wOps] at this ⊢
      exact this
    · intro m' todo' ok' e
      cases e
      refine ⟨hm, w1.tail, m1, ?_, ?_, ?_, ?_⟩
      · intro i hi
        rcases (m2 i).mp hi with hi | ⟨rs, j, -, -, hj⟩
        · exact w3 i hi
        · exact w4 i (by rw [q3]; exact List.mem_append.mpr (Or.inl (get_mem hj)))
      · intro i hi
        exact w4 i (by rw [q3]; exact List.mem_append.mpr (Or.inr hi))
      · intro i hi
        rcases (m2 i).mp hi with hi | ⟨rs, j, -, -, hj⟩
        · intro hm
          exact w5 i hi (by rw [q3]; exact List.mem_append.mpr (Or.inr hm))
        · exact q2 i (get_mem hj)
      · intro i hi
        rcases (m2 i).mp hi with hi | ⟨rs, j, e1, e2, hj⟩
        · obtain ⟨x, x1, x2⟩ := w6 i hi
          refine ⟨x, x1, ?_⟩
          show store' _ = _
          rw [hkeep]
          · exact x2
          · intro j hj k y hk hy e
            have := getElem?_map_inj hdm x1 hy e
            refine w5 i hi ?_
            rw [q3, this]
            exact List.mem_append.mpr (Or.inl (get_mem hk))
        · have hjl : j < op.indexes.length := (List.getElem?_eq_some_iff.mp hj).1
          have hjb : j < bufs.length := by omega
          obtain ⟨x, x1, x2⟩ := w1.head hj
          refine ⟨x, x1, ?_⟩
          have hb := h3 j (by omega)
          rw [hj] at hb
          simp only [Option.bind_some] at hb
          obtain ⟨y, y1, y2, -⟩ := hm.good i (w4 i (by rw [q3]; exact List.mem_append.mpr (Or.inl (get_mem hj))))
          rw [x1] at y1
          cases y1
          rw [y2] at hb
          have := (h4.2 rs e1).2 j _ e2 hb
          show store' _ = _
          rw [← x2]
          exact this
  | writeDone m ok h1 =>
    obtain ⟨hm, w1, w2, w3, w4, w5, w6⟩ := h.writing _ _ _ h1
    obtain ⟨f1, f2⟩ := failed_length m.ops m.ok ok hm.nodup hm.bound w2 w3
    rw [addWrite_eq _ _ _ _ hm.nodup hm.bound w2 w3]
    have hall := h.all
    rw [h1] at hall
    simp only [wOps] at hall
    have hnd' := hnd
    rw [← hall] at hnd'
    obtain ⟨-, hnm, hdm⟩ := List.nodup_append.mp hnd'
    obtain ⟨hnm, -, -⟩ := List.nodup_append.mp hnm
    have hfail : ∀ x ∈ failedWrites m.ops m.ok ok, x ∈ m.ops ∧ x ∉ s.stats.readErrors := by
      intro x hx
      obtain ⟨i, i1, i2, i3⟩ := (mem_failed _ _ _ _).mp hx
      obtain ⟨y, y1, -, y2⟩ := hm.good i i2
      rw [i1] at y1
      cases y1
      exact ⟨get_mem i1, y2⟩
    refine ⟨done ++ m.ops, {
      all := (by simpa [wOps] using hall), frame := ?_, each := ?_, rmem := ?_, wmem := ?_, rnodup := h.rnodup, wnodup := ?_, count := ?_,
      reading := h.reading, sending := h.sending, queued := h.queued, writing := (by intro _ _ _ h; cases h), closed := h.closed, stopped := (by intro h; cases h) }⟩
    · intro l hl
      obtain ⟨x, x1, x2⟩ := h.frame l hl
      rw [h1] at x1
      exact ⟨x, Or.inl (List.mem_append.mpr x1), x2⟩
    · intro x hx
      rcases List.mem_append.mp hx with hx | hx
      · rcases h.each x hx with h | h | h
        · exact Or.inl h
        · exact Or.inr (Or.inl (List.mem_append.mpr (Or.inl h)))
        · exact Or.inr (Or.inr h)
      · obtain ⟨i, hi⟩ := List.mem_iff_getElem?.mp hx
        by_cases c1 : i ∈ m.ok
        · by_cases c2 : i ∈ ok
          · obtain ⟨y, y1, y2⟩ := w6 i c2
            rw [hi] at y1
            cases y1
            exact Or.inr (Or.inr y2)
          · exact Or.inr (Or.inl (List.mem_append.mpr (Or.inr ((mem_failed _ _ _ _).mpr ⟨i, hi, c1, c2⟩))))
        · exact Or.inl (hm.bad i x hi c1)
    · intro x hx
      have := h.rmem x hx
      rw [h1] at this
      rcases this with h | h | h | h
      · exact Or.inl (List.mem_append.mpr (Or.inl h))
      · exact Or.inl (List.mem_append.mpr (Or.inr h))
      · exact Or.inr (Or.inr (Or.inl h))
      · exact Or.inr (Or.inr (Or.inr h))
    · intro x hx
      rcases List.mem_append.mp hx with hx | hx
      · obtain ⟨a, b⟩ := h.wmem x hx
        exact ⟨List.mem_append.mpr (Or.inl a), b⟩
      · obtain ⟨a, b⟩ := hfail x hx
        exact ⟨List.mem_append.mpr (Or.inr a), b⟩
    · refine List.nodup_append.mpr ⟨h.wnodup, hnm.sublist f2, ?_⟩
      intro a ha b hb e
      exact hdm a (h.wmem a ha).1 b (List.mem_append.mpr (Or.inl (hfail b hb).1)) e
    · have := h.count
      simp only [inFlight, h1, wOps, List.length_append, List.length_nil] at this ⊢
      omega
  | stop h1 h2 h3 =>
    have hr : s.reader = .done := by
      cases hr : s.reader <;> rw [hr] at h3 <;> first | rfl | exact h3.elim
    have hall := h.all
    rw [h1] at hall
    refine ⟨done, {
      all := (by simpa [wOps] using hall), frame := ?_, each := h.each, rmem := ?_, wmem := h.wmem, rnodup := h.rnodup, wnodup := h.wnodup, count := ?_,
      reading := h.reading, sending := h.sending, queued := h.queued, writing := (by intro _ _ _ h; cases h), closed := h.closed, stopped := fun _ => ⟨hr, h2⟩ }⟩
    · intro l hl
      obtain ⟨x, x1, x2⟩ := h.frame l hl
      rw [h1] at x1
      exact ⟨x, x1, x2⟩
    · intro x hx
      have := h.rmem x hx
      rw [h1] at this
      exact this
    · have := h.count
      simp only [inFlight, h1, wOps] at this ⊢
      exact this

theorem steps_inv {c : Cfg} (hb : 0 < c.blockSize) (hc : c.blockSize ≤ c.bufferSize) {ops : List CopyOp} {store0 : Loc → β} (hs : Separate c ops) {t : St β}
    (h : Steps c (St.init c ops store0) t) : ∃ done, Inv c ops store0 t done := by
  induction h with
  | refl => exact ⟨[], init_inv c hb hc ops store0⟩
  | tail _ hst ih =>
    obtain ⟨done, hi⟩ := ih
    exact step_inv hs hi hst

/-- C40: whatever the two threads do in whatever order, and whatever the devices answer, when the copy returns every block has been copied or is listed as an error, and nothing
else has changed. -/
theorem copy_correct {c : Cfg} (hb : 0 < c.blockSize) (hc : c.blockSize ≤ c.bufferSize) {ops : List CopyOp} {store0 : Loc → β} (hs : Separate c ops) {t : St β}
    (h : Steps c (St.init c ops store0) t) (hf : t.finished) : Copied c ops store0 t.store t.stats := by
  obtain ⟨done, hi⟩ := steps_inv hb hc hs h
  have hr : t.reader = .done := by
    have := hf.1
    cases hr : t.reader <;> rw [hr] at this <;> first | rfl | exact this.elim
  have hw : t.writer = .stopped := by
    have := hf.2
    cases hr : t.writer <;> rw [hr] at this <;> first | rfl | exact this.elim
  have hq := (hi.stopped hw).2
  have hch := hi.closed hr
  have hall := hi.all
  rw [hr, hw, hq, hch] at hall
  simp only [wOps, qOps, rOps, List.flatten_nil, List.append_nil] at hall
  subst hall
  have hrm : ∀ op ∈ t.stats.readErrors, op ∈ done := by
    intro op ho
    have := hi.rmem op ho
    rw [hr, hw, hq] at this
    simpa [wOps, qOps, sOps] using this
  have hfr : ∀ l, t.store l ≠ store0 l → ∃ op ∈ done, l = c.dstLoc op.dst ∧ op ∉ t.stats.readErrors := by
    intro l hl
    obtain ⟨op, h1, h2, h3⟩ := hi.frame l hl
    rw [hw] at h1
    exact ⟨op, by simpa [wOps] using h1, h2, h3⟩
  refine ⟨hi.each, ?_, ?_, ⟨?_, ?_⟩, ?_⟩
  · intro l hl
    by_contra hne
    obtain ⟨op, h1, h2, -⟩ := hfr l hne
    exact hl op h1 h2
  · intro op ho
    by_contra hne
    obtain ⟨op', h1, h2, h3⟩ := hfr _ hne
    obtain ⟨i, hi'⟩ := List.mem_iff_getElem?.mp (hrm op ho)
    obtain ⟨j, hj'⟩ := List.mem_iff_getElem?.mp h1
    have := getElem?_map_inj hs.dst hi' hj' h2
    subst this
    rw [hi'] at hj'
    cases hj'
    exact h3 ho
  · intro op ho
    rcases List.mem_append.mp ho with ho | ho
    · exact hrm op ho
    · exact (hi.wmem op ho).1
  · refine List.nodup_append.mpr ⟨hi.rnodup, hi.wnodup, ?_⟩
    intro a ha b hb' e
    exact (hi.wmem b hb').2 (e ▸ ha)
  · have := hi.count
    simp only [inFlight, hr, hw, hq, wOps, qOps, sOps, List.length_nil] at this
    rw [List.length_append]
    omega

/-- at every point of every execution, the sources are untouched -/
theorem sources_unchanged {c : Cfg} (hb : 0 < c.blockSize) (hc : c.blockSize ≤ c.bufferSize) {ops : List CopyOp} {store0 : Loc → β} (hs : Separate c ops) {t : St β}
    (h : Steps c (St.init c ops store0) t) : ∀ op ∈ ops, t.store (c.srcLoc op.src) = store0 (c.srcLoc op.src) := by
  obtain ⟨done, hi⟩ := steps_inv hb hc hs h
  exact hi.source hs

/-- at every point of every execution (a crash included), only destinations have changed -/
theorem only_destinations {c : Cfg} (hb : 0 < c.blockSize) (hc : c.blockSize ≤ c.bufferSize) {ops : List CopyOp} {store0 : Loc → β} (hs : Separate c ops) {t : St β}
    (h : Steps c (St.init c ops store0) t) : ∀ l, (∀ op ∈ ops, l ≠ c.dstLoc op.dst) → t.store l = store0 l := by
  obtain ⟨done, hi⟩ := steps_inv hb hc hs h
  intro l hl
  by_contra hne
  obtain ⟨op, h1, h2, -⟩ := hi.frame l hne
  refine hl op ?_ h2
  rw [← hi.all]
  rcases h1 with h1 | h1 <;> simp [h1]

/-! ## No deadlock, and every execution ends -/

/-- a call of a device always returns something -/
theorem readCall_exists (store : Loc → β) (loc : Nat → Loc) (n : Nat) (x : β) : ReadCall store loc n (List.replicate n x) none :=
  ⟨List.length_replicate, by intro rs h; cases h⟩

theorem writeCall_exists (store : Loc → β) (loc : Nat → Loc) (bufs : List β) : WriteCall store loc bufs store none :=
  ⟨fun _ _ => rfl, by intro rs h; cases h⟩

/-- the indexes of a call are in the buffer -/
structure BufOK (s : St β) : Prop where
  wbuf : ∀ m todo ok, s.writer = .writing m todo ok → m.buf.length = m.ops.length
  qbuf : ∀ m, s.queue = some m → m.buf.length = m.ops.length
  sbuf : ∀ m, s.reader = .sending m → m.buf.length = m.ops.length

theorem bufOK_step {c : Cfg} {ops : List CopyOp} {store0 : Loc → β} {s t : St β} {done : List CopyOp} (hi : Inv c ops store0 s done) (h : BufOK s)
    (hst : Step c s t) : BufOK t := by
  cases hst with
  | chunk o rest buf h1 h2 h3 => exact ⟨h.wbuf, h.qbuf, (by intro _ e; cases e)⟩
  | read o op todo buf ok data res h1 h2 => exact ⟨h.wbuf, h.qbuf, (by intro _ e; cases e)⟩
  | readDone o buf ok h1 =>
    refine ⟨h.wbuf, h.qbuf, ?_⟩
    intro m e
    cases e
    exact (hi.reading _ _ _ _ h1).len
  | send m h1 h2 =>
    refine ⟨h.wbuf, ?_, (by intro _ e; cases e)⟩
    intro m' e
    cases e
    exact h.sbuf m h1
  | drop h1 h2 => exact ⟨h.wbuf, h.qbuf, (by intro _ e; cases e)⟩
  | recv m h1 h2 =>
    refine ⟨?_, (by intro _ e; cases e), h.sbuf⟩
    intro m' todo ok e
    cases e
    exact h.qbuf m h2
  | write m op todo ok bufs store' res h1 h2 h3 h4 =>
    refine ⟨?_, h.qbuf, h.sbuf⟩
    intro m' todo' ok' e
    cases e
    exact h.wbuf _ _ _ h1
  | writeDone m ok h1 => exact ⟨(by intro _ _ _ e; cases e), h.qbuf, h.sbuf⟩
  | stop h1 h2 h3 => exact ⟨(by intro _ _ _ e; cases e), h.qbuf, h.sbuf⟩

theorem steps_bufOK {c : Cfg} (hb : 0 < c.blockSize) (hc : c.blockSize ≤ c.bufferSize) {ops : List CopyOp} {store0 : Loc → β} (hs : Separate c ops) {t : St β}
    (h : Steps c (St.init c ops store0) t) : BufOK t := by
  induction h with
  | refl => exact ⟨(by intro _ _ _ e; cases e), (by intro _ e; cases e), (by intro _ e; cases e)⟩
  | tail hss hst ih =>
    obtain ⟨done, hi⟩ := steps_inv hb hc hs hss
    exact bufOK_step hi ih hst

/-- C40: no deadlock.  As long as the copy has not finished, one of the threads can go on. -/
theorem copy_progress {c : Cfg} (hb : 0 < c.blockSize) (hc : c.blockSize ≤ c.bufferSize) {ops : List CopyOp} {store0 : Loc → β} (hs : Separate c ops) {t : St β}
    (h : Steps c (St.init c ops store0) t) (hf : ¬t.finished) : ∃ u, Step c t u := by
  obtain ⟨done, hi⟩ := steps_inv hb hc hs h
  have hbuf := steps_bufOK hb hc hs h
  cases hw : t.writer with
  | writing m todo ok =>
    cases todo with
    | nil => exact ⟨_, .writeDone t m ok hw⟩
    | cons o todo =>
      obtain ⟨hm, w1, -, -, w4, -, -⟩ := hi.writing _ _ _ hw
      have hl := (w1.wf o (by simp)).1
      have hlen := hbuf.wbuf _ _ _ hw
      have hmem : ∀ i ∈ o.indexes, i < m.buf.length := by
        intro i hi'
        rw [hlen]
        exact hm.bound i (w4 i (by rw [w1.split.2.2]; exact List.mem_append.mpr (Or.inl hi')))
      refine ⟨_, .write t m o todo ok (o.indexes.filterMap fun i => m.buf[i]?) t.store none hw ?_ ?_ (writeCall_exists _ _ _)⟩
      · rw [show (o.indexes.filterMap fun i => m.buf[i]?) = o.indexes.attach.map fun i => m.buf[i.1]'(hmem i.1 i.2) from ?_]
        · rw [List.length_map, List.length_attach]; omega
        · rw [← List.filterMap_eq_map]
          conv => lhs; rw [← List.attach_map_subtype_val o.indexes]
          rw [List.filterMap_map]
          apply List.filterMap_congr
          intro i _
          simp [hmem i.1 i.2]
      · intro j hj
        rw [show (o.indexes.filterMap fun i => m.buf[i]?) = o.indexes.attach.map fun i => m.buf[i.1]'(hmem i.1 i.2) from ?_]
        · have : j < o.indexes.length := by omega
          simp [this, hmem]
        · rw [← List.filterMap_eq_map]
          conv => lhs; rw [← List.attach_map_subtype_val o.indexes]
          rw [List.filterMap_map]
          apply List.filterMap_congr
          intro i _
          simp [hmem i.1 i.2]
  | wait =>
    cases hq : t.queue with
    | some m => exact ⟨_, .recv t m hw hq⟩
    | none =>
      cases hr : t.reader with
      | next =>
        cases hch : t.chunks with
        | nil => exact ⟨_, .drop t hr hch⟩
        | cons o rest =>
          cases o with
          | nil => exact ⟨_, .chunk t [] rest [] hr hch rfl⟩
          | cons x o => exact ⟨_, .chunk t _ rest (List.replicate (x :: o).length (t.store (c.srcLoc x.src))) hr hch List.length_replicate⟩
      | reading o todo buf ok =>
        cases todo with
        | nil => exact ⟨_, .readDone t o buf ok hr⟩
        | cons p todo => exact ⟨_, .read t o p todo buf ok _ none hr (readCall_exists _ _ _ (t.store (false, 0)))⟩
      | sending m => exact ⟨_, .send t m hr hq⟩
      | done => exact ⟨_, .stop t hw hq (by rw [hr]; trivial)⟩
  | stopped =>
    exfalso
    apply hf
    refine ⟨?_, ?_⟩
    · rw [(hi.stopped hw).1]; trivial
    · rw [hw]; trivial

/-- what is left of a chunk's reading, and its passage to the writer -/
def rWork : Reader β → Nat
  | .next => 1
  | .reading ops todo _ _ => todo.length + ops.length + 6
  | .sending m => m.ops.length + 5
  | .done => 0

def qWork : Option (Msg β) → Nat
  | some m => m.ops.length + 3
  | none => 0

def wWork : Writer β → Nat
  | .writing _ todo _ => todo.length + 2
  | .wait => 1
  | .stopped => 0

/-- an upper bound on the number of steps that are left -/
def work (s : St β) : Nat := (s.chunks.map fun o => 2 * o.length + 7).sum + rWork s.reader + qWork s.queue + wWork s.writer

theorem aggregateFrom_length (ops : List Op) : ∀ last, (aggregateFrom last ops).length ≤ ops.length + 1 := by
  induction ops with
  | nil => intro last; exact Nat.le_refl _
  | cons o ops ih =>
    intro last
    rw [aggregateFrom]
    split
    · have := ih { last with bend := o.bend, indexes := last.indexes ++ o.indexes }
      rw [List.length_cons]; omega
    · have := ih o
      rw [List.length_cons, List.length_cons]; omega

theorem aggregateOps_length (ops : List Op) : (aggregateOps ops).length ≤ ops.length := by
  cases ops with
  | nil => exact Nat.le_refl _
  | cons o ops => exact aggregateFrom_length ops o

theorem insertOp_length (o : Op) (l : List Op) : (insertOp o l).length = l.length + 1 := by
  induction l with
  | nil => rfl
  | cons p l ih => rw [insertOp]; split <;> simp [ih]

theorem sortOps_length (l : List Op) : (sortOps l).length = l.length := by
  induction l with
  | nil => rfl
  | cons p l ih => rw [sortOps, insertOp_length, ih]; rfl

theorem readOps_length (ops : List CopyOp) : (readOps ops).length ≤ ops.length := by
  refine Nat.le_trans (aggregateOps_length _) ?_
  rw [sortOps_length, List.length_mapIdx]
  exact Nat.le_refl _

theorem writeOps_length (ops : List CopyOp) (ok : List Nat) : (writeOps ops ok).length ≤ ops.length := by
  refine Nat.le_trans (aggregateOps_length _) ?_
  rw [sortOps_length]
  refine Nat.le_trans (List.length_filterMap_le _ _) ?_
  rw [List.length_mapIdx]
  exact Nat.le_refl _

/-- C40: every step brings the copy nearer to its end, so no execution runs for ever. -/
theorem copy_terminates {c : Cfg} {s t : St β} (h : Step c s t) : work t < work s := by
  cases h with
  | chunk o rest buf h1 h2 h3 =>
    have := readOps_length o
    simp only [work, h1, h2, rWork, List.map_cons, List.sum_cons]
    omega
  | read o op todo buf ok data res h1 h2 => simp only [work, h1, rWork, List.length_cons]; omega
  | readDone o buf ok h1 => simp only [work, h1, rWork, List.length_nil]; omega
  | send m h1 h2 => simp only [work, h1, h2, rWork, qWork]; omega
  | drop h1 h2 => simp only [work, h1, rWork]; omega
  | recv m h1 h2 =>
    have := writeOps_length m.ops m.ok
    simp only [work, h1, h2, qWork, wWork]
    omega
  | write m op todo ok bufs store' res h1 h2 h3 h4 => simp only [work, h1, wWork, List.length_cons]; omega
  | writeDone m ok h1 => simp only [work, h1, wWork, List.length_nil]; omega
  | stop h1 h2 h3 => simp only [work, h1, wWork]; omega

/-- C40: a copy can always be completed, and then it is right: in particular `copy_correct` is not about an empty set of executions. -/
theorem copy_completes {c : Cfg} (hb : 0 < c.blockSize) (hc : c.blockSize ≤ c.bufferSize) {ops : List CopyOp} {store0 : Loc → β} (hs : Separate c ops) :
    ∀ {t : St β}, Steps c (St.init c ops store0) t → ∃ u, Steps c t u ∧ u.finished ∧ Copied c ops store0 u.store u.stats := by
  suffices H : ∀ n, ∀ t : St β, work t ≤ n → Steps c (St.init c ops store0) t → ∃ u, Steps c t u ∧ u.finished by
    intro t ht
    obtain ⟨u, h1, h2⟩ := H _ t (Nat.le_refl _) ht
    refine ⟨u, h1, h2, copy_correct hb hc hs ?_ h2⟩
    clear H h2
    induction h1 with
    | refl => exact ht
    | tail _ hst ih => exact .tail ih hst
  intro n
  induction n with
  | zero =>
    intro t hw ht
    by_cases hf : t.finished
    · exact ⟨t, .refl t, hf⟩
    · obtain ⟨u, hu⟩ := copy_progress hb hc hs ht hf
      have := copy_terminates hu
      omega
  | succ n ih =>
    intro t hw ht
    by_cases hf : t.finished
    · exact ⟨t, .refl t, hf⟩
    · obtain ⟨u, hu⟩ := copy_progress hb hc hs ht hf
      have := copy_terminates hu
      obtain ⟨v, h1, h2⟩ := ih u (by omega) (.tail ht hu)
      refine ⟨v, ?_, h2⟩
      clear h2 ih
      induction h1 with
      | refl => exact .tail (.refl t) hu
      | tail _ hst ih' => exact .tail ih' hst

end Verif.Cop
