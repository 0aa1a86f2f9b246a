import Verif.Model.CopyProgress
import Verif.Prop.CopierRun
import Verif.Prop.CopyQueue
import Verif.Prop.Rescue

/-!
# C86: progress of a copy
-/

namespace Verif.CopyProg

open Verif.Cop

variable {β : Type}

/-! ## Specification -/

/-- later statistics have at least the blocks and errors of earlier ones -/
structure Grows (a b : Stats) : Prop where
  copied : a.nrCopied ≤ b.nrCopied
  reads : a.readErrors <+: b.readErrors
  writes : a.writeErrors <+: b.writeErrors

/-- what a copier tells while it copies `ops`: statistics that grow, and at the end every block copied or an error listed -/
structure Fair (ops : List CopyOp) (us : List Stats) (st : Stats) : Prop where
  grows : (us ++ [st]).Pairwise Grows
  bound : st.nrCopied ≤ ops.length
  all : st.nrCopied = ops.length ↔ st.readErrors = [] ∧ st.writeErrors = []

/-- sums over batches -/
def copied (h : List (List CopyOp × Stats)) : Nat := (h.map fun b => b.2.nrCopied).sum
def readErrs (h : List (List CopyOp × Stats)) : Nat := (h.map fun b => b.2.readErrors.length).sum
def writeErrs (h : List (List CopyOp × Stats)) : Nat := (h.map fun b => b.2.writeErrors.length).sum
def asked (h : List (List CopyOp × Stats)) : Nat := (h.map fun b => b.1.length).sum

/-! ## The copiers are fair -/

theorem Grows.refl (s : Stats) : Grows s s := ⟨Nat.le_refl _, List.prefix_refl _, List.prefix_refl _⟩

theorem Grows.trans {a b c : Stats} (h : Grows a b) (k : Grows b c) : Grows a c :=
  ⟨Nat.le_trans h.copied k.copied, h.reads.trans k.reads, h.writes.trans k.writes⟩

theorem addRead_grows (s : Stats) (ops : List CopyOp) (ok : List Nat) : Grows s (s.addRead ops ok) :=
  ⟨Nat.le_refl _, List.prefix_append _ _, List.prefix_refl _⟩

theorem addWrite_grows (s : Stats) (ops : List CopyOp) (rok wok : List Nat) : Grows s (s.addWrite ops rok wok) :=
  ⟨Nat.le_add_right _ _, List.prefix_refl _, List.prefix_append _ _⟩

theorem step_grows {c : Cfg} {s t : St β} (h : Step c s t) : Grows s.stats t.stats := by
  cases h with
  | readDone ops buf ok _ => exact addRead_grows _ _ _
  | writeDone m ok _ => exact addWrite_grows _ _ _ _
  | _ => exact Grows.refl _

theorem trace_steps {c : Cfg} {s t : St β} {us : List Stats} (h : Trace c s us t) : Steps c s t := by
  induction h with
  | refl => exact .refl _
  | tail _ hst ih => exact .tail ih hst

theorem steps_trace {c : Cfg} {s t : St β} (h : Steps c s t) : ∃ us, Trace c s us t := by
  induction h with
  | refl => exact ⟨_, .refl _⟩
  | tail _ hst ih => obtain ⟨us, h⟩ := ih; exact ⟨_, .tail h hst⟩

theorem called_mem {s t : St β} {x : Stats} (h : x ∈ called s t) : x = t.stats := by
  unfold called at h
  split at h
  · exact List.mem_singleton.mp h
  · cases h

theorem called_pair (s t : St β) : (called s t).Pairwise Grows := by
  unfold called
  split
  · exact List.pairwise_singleton _ _
  · exact .nil

theorem trace_grows {c : Cfg} {s t : St β} {us : List Stats} (h : Trace c s us t) : us.Pairwise Grows ∧ ∀ x ∈ us, Grows x t.stats := by
  induction h with
  | refl => exact ⟨.nil, fun _ h => by cases h⟩
  | tail _ hst ih =>
    have g := step_grows hst
    constructor
    · refine List.pairwise_append.mpr ⟨ih.1, called_pair _ _, ?_⟩
      intro x hx y hy
      rw [called_mem hy]
      exact (ih.2 x hx).trans g
    · intro x hx
      rcases List.mem_append.mp hx with hx | hx
      · exact (ih.2 x hx).trans g
      · rw [called_mem hx]; exact Grows.refl _

/-- C86: the threaded copier is fair, whatever its threads and the devices do. -/
theorem sync_fair {c : Cfg} (hb : 0 < c.blockSize) (hc : c.blockSize ≤ c.bufferSize) (store : Loc → β) {ops : List CopyOp} (hs : Separate c ops)
    {us : List Stats} {st : Stats} (h : syncCopy c store ops us st) : Fair ops us st := by
  obtain ⟨u, ht, hf, rfl⟩ := h
  have hcop := copy_correct hb hc hs (trace_steps ht) hf
  obtain ⟨g1, g2⟩ := trace_grows ht
  have hcount := hcop.count
  rw [List.length_append] at hcount
  refine ⟨List.pairwise_append.mpr ⟨g1, List.pairwise_singleton _ _, ?_⟩, by omega, ?_⟩
  · intro x hx y hy
    rw [List.mem_singleton.mp hy]
    exact g2 x hx
  · rw [← List.length_eq_zero_iff, ← List.length_eq_zero_iff]
    omega

theorem rescue_one {c : Resc.Cfg} {rd wr : Nat → Resc.Outcome β} {op : CopyOp} {s t : Resc.St β} (h : Resc.copyOne c rd wr op s = some t) :
    (t.stats.nrCopied = s.stats.nrCopied + 1 ∧ t.stats.readErrors = s.stats.readErrors ∧ t.stats.writeErrors = s.stats.writeErrors) ∨
    (t.stats.nrCopied = s.stats.nrCopied ∧ s.stats.readErrors <+: t.stats.readErrors ∧ s.stats.writeErrors <+: t.stats.writeErrors ∧
      s.stats.readErrors.length + s.stats.writeErrors.length < t.stats.readErrors.length + t.stats.writeErrors.length) := by
  unfold Resc.copyOne at h
  simp only at h
  generalize Resc.doRead rd s.store (c.srcPage op) 0 s.buf [] = r at h
  obtain ⟨w, -, rfl⟩ := Option.map_eq_some_iff.mp h
  simp only
  by_cases hw : w.2.2 > 0
  · rw [if_pos hw]
    right
    by_cases hr : r.2.2 > 0
    · rw [if_pos hr]; refine ⟨rfl, List.prefix_append _ _, List.prefix_append _ _, ?_⟩
      simp; omega
    · rw [if_neg hr]; refine ⟨rfl, List.prefix_refl _, List.prefix_append _ _, ?_⟩
      simp
  · rw [if_neg hw]
    by_cases hr : r.2.2 > 0
    · rw [if_pos hr, if_neg (by omega)]
      right
      refine ⟨rfl, List.prefix_append _ _, List.prefix_refl _, ?_⟩
      simp
    · rw [if_neg hr, if_pos (by omega)]
      left
      exact ⟨rfl, rfl, rfl⟩

theorem rescue_from {c : Resc.Cfg} {rd wr : Nat → Nat → Resc.Outcome β} : ∀ (ops : List CopyOp) (k : Nat) (s t : Resc.St β), Resc.copyFrom c rd wr k ops s = some t →
    s.stats.readErrors.length + s.stats.writeErrors.length ≤ t.stats.readErrors.length + t.stats.writeErrors.length ∧
    t.stats.nrCopied ≤ s.stats.nrCopied + ops.length ∧
    (t.stats.nrCopied = s.stats.nrCopied + ops.length ↔
      t.stats.readErrors.length + t.stats.writeErrors.length = s.stats.readErrors.length + s.stats.writeErrors.length) := by
  intro ops
  induction ops with
  | nil => intro k s t h; obtain rfl := Option.some.inj h; simp
  | cons op ops ih =>
    intro k s t h
    obtain ⟨m, h1, h2⟩ := Option.bind_eq_some_iff.mp h
    obtain ⟨i1, i2, i3⟩ := ih _ _ _ h2
    rw [List.length_cons]
    rcases rescue_one h1 with ⟨e1, e2, e3⟩ | ⟨e1, _, _, e2⟩
    · rw [e2, e3] at i1 i3
      rw [e1] at i2 i3
      refine ⟨i1, by omega, ?_⟩
      rw [← i3]; omega
    · rw [e1] at i2 i3
      refine ⟨by omega, by omega, ?_⟩
      constructor <;> intro h <;> omega

/-- C86: the rescue copier is fair as well. -/
theorem rescue_fair {c : Resc.Cfg} {ops : List CopyOp} {us : List Stats} {st : Stats} (h : rescueCopy β c ops us st) : Fair ops us st := by
  obtain ⟨rfl, rd, wr, buf, store, u, hu, rfl⟩ := h
  obtain ⟨-, h2, h3⟩ := rescue_from ops 0 _ u hu
  simp only [Nat.zero_add, List.length_nil] at h2 h3
  refine ⟨List.pairwise_singleton _ _, h2, ?_⟩
  rw [h3, ← List.length_eq_zero_iff, ← List.length_eq_zero_iff]
  omega

/-! ## What is shown -/

/-- sums at a moment -/
structure Count where
  copied : Nat
  reads : Nat
  writes : Nat

/-- no sum is smaller -/
structure Count.Le (a b : Count) : Prop where
  copied : a.copied ≤ b.copied
  reads : a.reads ≤ b.reads
  writes : a.writes ≤ b.writes

def Count.shown (blocks : Nat) (x : Count) : Shown := ⟨percent x.copied blocks, errorLine x.reads x.writes⟩

def Acc.count (a : Acc) : Count := ⟨a.copied, a.readErrs, a.writeErrs⟩

theorem Count.Le.trans {a b c : Count} (h : a.Le b) (k : b.Le c) : a.Le c :=
  ⟨Nat.le_trans h.copied k.copied, Nat.le_trans h.reads k.reads, Nat.le_trans h.writes k.writes⟩

theorem Count.Le.refl (a : Count) : a.Le a := ⟨Nat.le_refl _, Nat.le_refl _, Nat.le_refl _⟩

theorem add_le (a : Acc) (st : Stats) : a.count.Le (a.add st).count := ⟨Nat.le_add_right _ _, Nat.le_add_right _ _, Nat.le_add_right _ _⟩

theorem add_mono (a : Acc) {x y : Stats} (h : Grows x y) : (a.add x).count.Le (a.add y).count :=
  ⟨Nat.add_le_add_left h.copied _, Nat.add_le_add_left h.reads.length_le _, Nat.add_le_add_left h.writes.length_le _⟩

theorem session_counts {copy : List CopyOp → List Stats → Stats → Prop} (hf : ∀ ops us st, copy ops us st → Fair ops us st)
    {h : List (List CopyOp × Stats)} {a a' : Acc} {shown : List Shown} (hs : Session copy h a shown a') :
    a'.blocks = a.blocks ∧ a'.copied = a.copied + copied h ∧ a'.readErrs = a.readErrs + readErrs h ∧ a'.writeErrs = a.writeErrs + writeErrs h ∧
    ∃ cs : List Count, shown = cs.map (Count.shown a.blocks) ∧ cs.Pairwise Count.Le ∧ (∀ x ∈ cs, a.count.Le x ∧ x.Le a'.count) ∧
      (h ≠ [] → ∃ cs', cs = cs' ++ [a'.count]) := by
  induction hs with
  | nil a => exact ⟨rfl, rfl, rfl, rfl, [], rfl, .nil, (fun _ h => by cases h), fun h => absurd rfl h⟩
  | @batch ops us st rest a shown a' hc hr ih =>
    obtain ⟨i1, i2, i3, i4, cs, i5, i6, i7, i8⟩ := ih
    have fair := hf _ _ _ hc
    obtain ⟨g1, -, g2⟩ := List.pairwise_append.mp fair.grows
    have le' : (a.add st).count.Le a'.count := ⟨by rw [Acc.count, Acc.count, i2]; exact Nat.le_add_right _ _,
      by rw [Acc.count, Acc.count, i3]; exact Nat.le_add_right _ _, by rw [Acc.count, Acc.count, i4]; exact Nat.le_add_right _ _⟩
    refine ⟨i1, ?_, ?_, ?_, us.map (fun x => (a.add x).count) ++ (a.add st).count :: cs, ?_, ?_, ?_, ?_⟩
    · rw [i2]; simp only [Acc.add, copied, List.map_cons, List.sum_cons]; omega
    · rw [i3]; simp only [Acc.add, readErrs, List.map_cons, List.sum_cons]; omega
    · rw [i4]; simp only [Acc.add, writeErrs, List.map_cons, List.sum_cons]; omega
    · rw [i5, List.map_append, List.map_cons, List.map_map]; rfl
    · refine List.pairwise_append.mpr ⟨List.pairwise_map.mpr (g1.imp fun h => add_mono a h), ?_, ?_⟩
      · exact List.pairwise_cons.mpr ⟨fun x hx => (i7 x hx).1, i6⟩
      · intro x hx y hy
        obtain ⟨z, hz, rfl⟩ := List.mem_map.mp hx
        have := add_mono a (g2 z hz st (List.mem_singleton.mpr rfl))
        rcases List.mem_cons.mp hy with rfl | hy
        · exact this
        · exact this.trans (i7 y hy).1
    · intro x hx
      rcases List.mem_append.mp hx with hx | hx
      · obtain ⟨z, hz, rfl⟩ := List.mem_map.mp hx
        exact ⟨add_le a z, (add_mono a (g2 z hz st (List.mem_singleton.mpr rfl))).trans le'⟩
      · rcases List.mem_cons.mp hx with rfl | hx
        · exact ⟨add_le a st, le'⟩
        · exact ⟨(add_le a st).trans (i7 x hx).1, (i7 x hx).2⟩
    · intro _
      by_cases hr0 : rest = []
      · subst hr0
        cases hr
        obtain rfl : cs = [] := by simpa using i5.symm
        exact ⟨us.map fun x => (a.add x).count, rfl⟩
      · obtain ⟨cs', e⟩ := i8 hr0
        exact ⟨us.map (fun x => (a.add x).count) ++ (a.add st).count :: cs', by rw [e]; simp⟩

theorem percent_eq {c b : Nat} (hb : 0 < b) (hc : c ≤ b) (h : b * 100 < 2 ^ 64) : percent c b = c * 100 / b := by
  have : c * 100 / b ≤ 100 := Nat.div_le_of_le_mul (Nat.mul_le_mul_right _ hc)
  unfold percent
  rw [if_neg (by omega), Nat.mod_eq_of_lt (a := c * 100) (by omega), Nat.mod_eq_of_lt (by omega)]

theorem copied_le {copy : List CopyOp → List Stats → Stats → Prop} (hf : ∀ ops us st, copy ops us st → Fair ops us st)
    {h : List (List CopyOp × Stats)} {a a' : Acc} {shown : List Shown} (hs : Session copy h a shown a') :
    copied h ≤ asked h ∧ (copied h = asked h ↔ ∀ b ∈ h, b.2.readErrors = [] ∧ b.2.writeErrors = []) := by
  induction hs with
  | nil a => simp [copied, asked]
  | @batch ops us st rest a shown a' hc hr ih =>
    have fair := hf _ _ _ hc
    have h1 := fair.bound
    simp only [copied, asked, List.map_cons, List.sum_cons, List.forall_mem_cons] at ih ⊢
    refine ⟨by omega, ?_⟩
    rw [← ih.2, ← fair.all]
    omega

/-- C86: when a reporter was given at least the number of blocks to copy, the percentages it shows never fall and never exceed 100. -/
theorem percent_monotone {copy : List CopyOp → List Stats → Stats → Prop} (hf : ∀ ops us st, copy ops us st → Fair ops us st)
    {h : List (List CopyOp × Stats)} {blocks : Nat} {a' : Acc} {shown : List Shown} (hs : Session copy h (Acc.new blocks) shown a')
    (hb : asked h ≤ blocks) (hw : blocks * 100 < 2 ^ 64) :
    (shown.map (·.percent)).Pairwise (· ≤ ·) ∧ ∀ x ∈ shown, x.percent ≤ 100 := by
  obtain ⟨h1, h2, -, -, cs, rfl, h6, h7, -⟩ := session_counts hf hs
  have hc := (copied_le hf hs).1
  simp only [Acc.new, Nat.zero_add] at h2 h6 h7 ⊢
  rcases Nat.eq_zero_or_pos blocks with h0 | h0
  · subst h0
    constructor
    · rw [List.map_map]
      refine List.pairwise_map.mpr (h6.imp fun _ => ?_)
      exact Nat.le_refl 100
    · intro x hx
      obtain ⟨y, -, rfl⟩ := List.mem_map.mp hx
      exact Nat.le_refl 100
  · have bound : ∀ x ∈ cs, x.copied ≤ blocks := by
      intro x hx
      have := (h7 x hx).2.copied
      simp only [Acc.count] at this
      omega
    have eq : ∀ x ∈ cs, (Count.shown blocks x).percent = x.copied * 100 / blocks := fun x hx => percent_eq h0 (bound x hx) hw
    constructor
    · rw [List.map_map]
      refine List.pairwise_map.mpr (List.Pairwise.imp_of_mem ?_ h6)
      intro x y hx hy hxy
      show (Count.shown blocks x).percent ≤ (Count.shown blocks y).percent
      rw [eq x hx, eq y hy]
      exact Nat.div_le_div_right (Nat.mul_le_mul_right _ hxy.copied)
    · intro x hx
      obtain ⟨y, hy, rfl⟩ := List.mem_map.mp hx
      rw [eq y hy]
      exact Nat.div_le_of_le_mul (Nat.mul_le_mul_right _ (bound y hy))

/-- C86: in the end it shows the percentage of the blocks copied, and the numbers of errors of all batches if there are any; when it was given the number of
blocks to copy, it shows 100 exactly if all of them were copied, and then there is no error. -/
theorem final_shown {copy : List CopyOp → List Stats → Stats → Prop} (hf : ∀ ops us st, copy ops us st → Fair ops us st)
    {h : List (List CopyOp × Stats)} {a' : Acc} {shown : List Shown} {blocks : Nat} (hs : Session copy h (Acc.new blocks) shown a')
    (hn : h ≠ []) (h0 : 0 < blocks) (hb : asked h ≤ blocks) (hw : blocks * 100 < 2 ^ 64) :
    ∃ before last, shown = before ++ [last] ∧ last.percent = copied h * 100 / blocks ∧
      (last.errors = none ↔ readErrs h = 0 ∧ writeErrs h = 0) ∧ (∀ e, last.errors = some e → e = (readErrs h, writeErrs h)) ∧
      (asked h = blocks → (last.percent = 100 ↔ ∀ b ∈ h, b.2.readErrors = [] ∧ b.2.writeErrors = [])) := by
  obtain ⟨h1, h2, h3, h4, cs, rfl, h6, h7, h8⟩ := session_counts hf hs
  obtain ⟨hc, hall⟩ := copied_le hf hs
  obtain ⟨cs', rfl⟩ := h8 hn
  simp only [Acc.new, Nat.zero_add] at h2 h3 h4
  have hp : percent a'.copied blocks = copied h * 100 / blocks := by rw [h2]; exact percent_eq h0 (by omega) hw
  refine ⟨cs'.map (Count.shown blocks), Count.shown blocks a'.count, by rw [List.map_append]; rfl, hp, ?_, ?_, ?_⟩
  · simp only [Count.shown, Acc.count, errorLine, h3, h4]
    by_cases hz : readErrs h > 0 ∨ writeErrs h > 0
    · rw [if_pos hz]
      exact ⟨fun h => (by cases h), fun h => by omega⟩
    · rw [if_neg hz]
      exact ⟨fun _ => by omega, fun _ => rfl⟩
  · intro e he
    simp only [Count.shown, Acc.count, errorLine, h3, h4] at he
    by_cases hz : readErrs h > 0 ∨ writeErrs h > 0
    · rw [if_pos hz] at he; exact (Option.some.inj he).symm
    · rw [if_neg hz] at he; cases he
  · intro e
    rw [← hall]
    show percent a'.copied blocks = 100 ↔ _
    rw [hp]
    constructor
    · intro hx
      have := Nat.div_mul_le_self (copied h * 100) blocks
      rw [hx] at this
      omega
    · intro hx
      rw [hx, e]
      exact Nat.mul_div_cancel_left 100 h0

/-- With a number of blocks that is too small the percentage passes 100, and then starts again: three blocks of one are 44 per cent. -/
theorem percent_small_refuted : percent 2 1 = 200 ∧ percent 3 1 = 44 := by decide

/-! ## Meeting the hypotheses -/

example : Fair [⟨0, 5⟩, ⟨1, 6⟩] [⟨1, [], []⟩] ⟨1, [⟨1, 6⟩], []⟩ :=
  ⟨by refine List.pairwise_cons.mpr ⟨?_, List.pairwise_singleton _ _⟩
      intro x hx
      rw [List.mem_singleton.mp hx]
      exact ⟨by decide, by exact ⟨_, rfl⟩, by exact ⟨_, rfl⟩⟩, by decide, by decide⟩

/-- the threaded copier on any contents of the devices, for operations that do not get in each other's way -/
def anySync (β : Type) (c : Cfg) (ops : List CopyOp) (us : List Stats) (st : Stats) : Prop :=
  Separate c ops ∧ ∃ store : Loc → β, syncCopy c store ops us st

/-- C86, for the threaded copier: all that the theorems above say holds of it. -/
theorem anySync_fair {c : Cfg} (hb : 0 < c.blockSize) (hc : c.blockSize ≤ c.bufferSize) : ∀ ops us st, anySync β c ops us st → Fair ops us st :=
  fun _ _ _ ⟨hs, store, h⟩ => sync_fair hb hc store hs h

/-- every list of such batches has a session, so the theorems are not empty -/
theorem sync_session {c : Cfg} (hb : 0 < c.blockSize) (hc : c.blockSize ≤ c.bufferSize) (store : Loc → β) : ∀ (batches : List (List CopyOp)) (a : Acc),
    (∀ ops ∈ batches, Separate c ops) → ∃ h shown a', h.map (·.1) = batches ∧ Session (anySync β c) h a shown a' := by
  intro batches
  induction batches with
  | nil => intro a _; exact ⟨[], [], a, rfl, .nil a⟩
  | cons ops rest ih =>
    intro a hs
    obtain ⟨u, u1, u2, -⟩ := copy_completes hb hc (store0 := store) (hs ops (by simp)) (.refl _)
    obtain ⟨us, ht⟩ := steps_trace u1
    obtain ⟨h, shown, a', e, hr⟩ := ih (a.add u.stats) fun x hx => hs x (List.mem_cons_of_mem _ hx)
    exact ⟨(ops, u.stats) :: h, _, a', by rw [List.map_cons, e], .batch ⟨hs ops (by simp), store, u, ht, u2, rfl⟩ hr⟩

/-- the rescue copier reports a block of two pages whose second page cannot be read, and copies the other block -/
example : ∃ h a', Session (rescueCopy Nat ⟨2, 0, 0, false⟩) h (Acc.new 2) [⟨50, some (1, 0)⟩] a' := by
  refine ⟨[([⟨0, 1⟩, ⟨1, 0⟩], ⟨1, [⟨0, 1⟩], []⟩)], ⟨2, 1, 1, 0⟩,
    .batch (us := []) ⟨rfl, fun k i => if k = 0 ∧ i = 1 then some none else none, fun _ _ => none, [0, 0], fun _ => 7, ?_⟩ (.nil _)⟩
  exact ⟨_, rfl, by decide⟩

end Verif.CopyProg
