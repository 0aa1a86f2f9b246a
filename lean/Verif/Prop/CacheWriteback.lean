import Verif.Prop.CacheWritebackUpdate
import Verif.Prop.CacheCheckTool
import Verif.Prop.CacheRoundTrip
import Verif.Prop.CopyQueue
import Verif.Prop.CopierRun
import Verif.Prop.Rescue

/-!
# C35: `cache_writeback`

For any pattern of read and write errors over all the passes, the dirty flags that are cleared are those of blocks that were copied.
-/

namespace Verif.Wb

open Verif.CacheM
open Verif.Bits (ABlock)
open Verif.BT (Tree)
open Verif.Arr (Stored ASt chunk divUp)
open Verif.Cop (CopyOp Stats)

/-! ## Specification -/

/-- the contents of the blocks of the fast device and of the origin -/
structure View (σ γ : Type) where
  src : σ → Nat → γ
  dst : σ → Nat → γ

/-- what is required of a copier: an operation that is not reported as failed has copied its block; only destinations change.  Both copiers of the code do this
(`syncCopy_ok`, `rescueCopy_ok`). -/
structure CopierOk {σ γ : Type} (v : View σ γ) (copy : Copy σ) : Prop where
  errors : ∀ {ops s t st}, (ops.map (·.dst)).Nodup → copy ops s t (some st) → ∀ op ∈ st.readErrors ++ st.writeErrors, op ∈ ops
  each : ∀ {ops s t st}, (ops.map (·.dst)).Nodup → copy ops s t (some st) → ∀ op ∈ ops, op ∉ st.readErrors → op ∉ st.writeErrors → v.dst t op.dst = v.src s op.src
  frame : ∀ {ops s t st}, (ops.map (·.dst)).Nodup → copy ops s t (some st) → ∀ o, (∀ op ∈ ops, op.dst ≠ o) → v.dst t o = v.dst s o
  source : ∀ {ops s t st}, (ops.map (·.dst)).Nodup → copy ops s t (some st) → ∀ c, v.src t c = v.src s c

/-- some call copied cache block `c` without an error -/
def Succ (tr : Calls) (c : Nat) : Prop := ∃ call ∈ tr, ∃ op ∈ call.1, op.src = c ∧ op ∉ call.2.readErrors ∧ op ∉ call.2.writeErrors

/-- some call reported an error for cache block `c` -/
def Fail (tr : Calls) (c : Nat) : Prop := ∃ call ∈ tr, ∃ op ∈ call.1, op.src = c ∧ (op ∈ call.2.readErrors ∨ op ∈ call.2.writeErrors)

/-! ## One call -/

theorem mem_fold_ins (ops : List CopyOp) (l : RB) (c : Nat) :
    c ∈ ops.foldl (fun a op => ins (op.src % 2 ^ 32) a) l ↔ c ∈ l ∨ ∃ op ∈ ops, op.src % 2 ^ 32 = c := by
  induction ops generalizing l with
  | nil => simp
  | cons o ops ih =>
    rw [List.foldl_cons, ih, mem_ins]
    constructor
    · rintro ((h | h) | ⟨op, h1, h2⟩)
      · exact Or.inr ⟨o, by simp, h.symm⟩
      · exact Or.inl h
      · exact Or.inr ⟨op, by simp [h1], h2⟩
    · rintro (h | ⟨op, h1, h2⟩)
      · exact Or.inl (Or.inr h)
      · rcases List.mem_cons.mp h1 with rfl | h1
        · exact Or.inl (Or.inl h2.symm)
        · exact Or.inr ⟨op, h1, h2⟩

theorem fold_ins_inc (ops : List CopyOp) (l : RB) (h : Inc l) : Inc (ops.foldl (fun a op => ins (op.src % 2 ^ 32) a) l) := by
  induction ops generalizing l with
  | nil => exact h
  | cons o ops ih => exact ih _ (ins_inc _ _ h)

/-- the sets are increasing -/
structure Sets.Inc (x : Sets) : Prop where
  cleaned : Wb.Inc x.cleaned
  read : Wb.Inc x.readFailed
  write : Wb.Inc x.writeFailed

theorem fold_read (l : List CopyOp) (x : Sets) (hx : x.Inc) :
    let y := l.foldl (fun (x : Sets) op =>
      { x with cleaned := del (op.src % 2 ^ 32) x.cleaned, readFailed := ins (op.src % 2 ^ 32) x.readFailed }) x
    y.Inc ∧ (∀ c, c ∈ y.cleaned ↔ c ∈ x.cleaned ∧ ∀ op ∈ l, op.src % 2 ^ 32 ≠ c) ∧
      (∀ c, c ∈ y.readFailed ↔ c ∈ x.readFailed ∨ ∃ op ∈ l, op.src % 2 ^ 32 = c) ∧ y.writeFailed = x.writeFailed := by
  induction l generalizing x with
  | nil => exact ⟨hx, by simp, by simp, rfl⟩
  | cons o l ih =>
    have := ih { x with cleaned := del (o.src % 2 ^ 32) x.cleaned, readFailed := ins (o.src % 2 ^ 32) x.readFailed }
      ⟨del_inc _ _ hx.cleaned, ins_inc _ _ hx.read, hx.write⟩
    simp only at this
    obtain ⟨h1, h2, h3, h4⟩ := this
    simp only [List.foldl_cons]
    refine ⟨h1, ?_, ?_, h4⟩
    · intro c
      rw [h2, mem_del]
      constructor
      · rintro ⟨⟨a, b⟩, d⟩
        refine ⟨a, ?_⟩
        intro op hop
        rcases List.mem_cons.mp hop with rfl | hop
        · exact fun e => b e.symm
        · exact d op hop
      · rintro ⟨a, b⟩
        exact ⟨⟨a, fun e => b o (by simp) e.symm⟩, fun op hop => b op (by simp [hop])⟩
    · intro c
      rw [h3, mem_ins]
      constructor
      · rintro ((h | h) | ⟨op, p, q⟩)
        · exact Or.inr ⟨o, by simp, h.symm⟩
        · exact Or.inl h
        · exact Or.inr ⟨op, by simp [p], q⟩
      · rintro (h | ⟨op, p, q⟩)
        · exact Or.inl (Or.inr h)
        · rcases List.mem_cons.mp p with rfl | p
          · exact Or.inl (Or.inl q.symm)
          · exact Or.inr ⟨op, p, q⟩

theorem fold_write (l : List CopyOp) (x : Sets) (hx : x.Inc) :
    let y := l.foldl (fun (x : Sets) op =>
      { x with cleaned := del (op.src % 2 ^ 32) x.cleaned, writeFailed := ins (op.src % 2 ^ 32) x.writeFailed }) x
    y.Inc ∧ (∀ c, c ∈ y.cleaned ↔ c ∈ x.cleaned ∧ ∀ op ∈ l, op.src % 2 ^ 32 ≠ c) ∧
      (∀ c, c ∈ y.writeFailed ↔ c ∈ x.writeFailed ∨ ∃ op ∈ l, op.src % 2 ^ 32 = c) ∧ y.readFailed = x.readFailed := by
  induction l generalizing x with
  | nil => exact ⟨hx, by simp, by simp, rfl⟩
  | cons o l ih =>
    have := ih { x with cleaned := del (o.src % 2 ^ 32) x.cleaned, writeFailed := ins (o.src % 2 ^ 32) x.writeFailed }
      ⟨del_inc _ _ hx.cleaned, hx.read, ins_inc _ _ hx.write⟩
    simp only at this
    obtain ⟨h1, h2, h3, h4⟩ := this
    simp only [List.foldl_cons]
    refine ⟨h1, ?_, ?_, h4⟩
    · intro c
      rw [h2, mem_del]
      constructor
      · rintro ⟨⟨a, b⟩, d⟩
        refine ⟨a, ?_⟩
        intro op hop
        rcases List.mem_cons.mp hop with rfl | hop
        · exact fun e => b e.symm
        · exact d op hop
      · rintro ⟨a, b⟩
        exact ⟨⟨a, fun e => b o (by simp) e.symm⟩, fun op hop => b op (by simp [hop])⟩
    · intro c
      rw [h3, mem_ins]
      constructor
      · rintro ((h | h) | ⟨op, p, q⟩)
        · exact Or.inr ⟨o, by simp, h.symm⟩
        · exact Or.inl h
        · exact Or.inr ⟨op, by simp [p], q⟩
      · rintro (h | ⟨op, p, q⟩)
        · exact Or.inl (Or.inr h)
        · rcases List.mem_cons.mp p with rfl | p
          · exact Or.inl (Or.inl q.symm)
          · exact Or.inr ⟨op, p, q⟩

/-- the sets after a call whose sources are new -/
theorem account_spec {ops : List CopyOp} {st : Stats} {x : Sets} (hx : x.Inc) (hn : (ops.map (·.src)).Nodup) (h32 : ∀ op ∈ ops, op.src < 2 ^ 32)
    (hnew : ∀ op ∈ ops, op.src ∉ x.cleaned) (herr : ∀ op ∈ st.readErrors ++ st.writeErrors, op ∈ ops) :
    (account ops st x).Inc ∧
    (∀ c, c ∈ (account ops st x).cleaned ↔ c ∈ x.cleaned ∨ ∃ op ∈ ops, op.src = c ∧ op ∉ st.readErrors ∧ op ∉ st.writeErrors) ∧
    (∀ c, (c ∈ (account ops st x).readFailed ∨ c ∈ (account ops st x).writeFailed) ↔
      (c ∈ x.readFailed ∨ c ∈ x.writeFailed) ∨ ∃ op ∈ ops, op.src = c ∧ (op ∈ st.readErrors ∨ op ∈ st.writeErrors)) := by
  have hm : ∀ op ∈ ops, op.src % 2 ^ 32 = op.src := fun op h => Nat.mod_eq_of_lt (h32 op h)
  have hre : ∀ op ∈ st.readErrors, op ∈ ops := fun op h => herr op (List.mem_append_left _ h)
  have hwe : ∀ op ∈ st.writeErrors, op ∈ ops := fun op h => herr op (List.mem_append_right _ h)
  have hinj : ∀ o ∈ ops, ∀ p ∈ ops, o.src = p.src → o = p := by
    intro o ho p hp e
    obtain ⟨i, hi, rfl⟩ := List.mem_iff_getElem.mp ho
    obtain ⟨j, hj, rfl⟩ := List.mem_iff_getElem.mp hp
    have : i = j := (List.getElem?_inj (by simpa using hi) hn).mp (by
      rw [List.getElem?_map, List.getElem?_map, List.getElem?_eq_getElem hi, List.getElem?_eq_getElem hj]
      simp [e])
    subst this
    rfl
  have f0 : Sets.Inc { x with cleaned := ops.foldl (fun a op => ins (op.src % 2 ^ 32) a) x.cleaned } :=
    ⟨fold_ins_inc ops _ hx.cleaned, hx.read, hx.write⟩
  have f1 := fold_read st.readErrors _ f0
  simp only at f1
  obtain ⟨r1, r2, r3, r4⟩ := f1
  have f2 := fold_write st.writeErrors _ r1
  simp only at f2
  obtain ⟨w1, w2, w3, w4⟩ := f2
  refine ⟨w1, ?_, ?_⟩
  · intro c
    have e1 := (w2 c).trans (and_congr_left' (r2 c))
    refine Iff.trans e1 ?_
    rw [mem_fold_ins]
    constructor
    · rintro ⟨⟨h | ⟨op, p, q⟩, hr⟩, hw⟩
      · exact Or.inl h
      · rw [hm op p] at q
        refine Or.inr ⟨op, p, q, fun h => hr op h ?_, fun h => hw op h ?_⟩ <;> rw [hm op p, q]
    · rintro (h | ⟨op, p, q, hr, hw⟩)
      · refine ⟨⟨Or.inl h, ?_⟩, ?_⟩
        · intro op hop e
          rw [hm op (hre op hop)] at e
          exact hnew op (hre op hop) (e ▸ h)
        · intro op hop e
          rw [hm op (hwe op hop)] at e
          exact hnew op (hwe op hop) (e ▸ h)
      · refine ⟨⟨Or.inr ⟨op, p, by rw [hm op p, q]⟩, ?_⟩, ?_⟩
        · intro o ho e
          rw [hm o (hre o ho)] at e
          have := hinj o (hre o ho) op p (by rw [e, q])
          subst this
          exact hr ho
        · intro o ho e
          rw [hm o (hwe o ho)] at e
          have := hinj o (hwe o ho) op p (by rw [e, q])
          subst this
          exact hw ho
  · intro c
    have e1 : c ∈ (account ops st x).readFailed ↔ c ∈ x.readFailed ∨ ∃ op ∈ st.readErrors, op.src % 2 ^ 32 = c := by
      have : (account ops st x).readFailed = _ := w4
      rw [this]
      exact r3 c
    have e2 : c ∈ (account ops st x).writeFailed ↔ c ∈ x.writeFailed ∨ ∃ op ∈ st.writeErrors, op.src % 2 ^ 32 = c := by
      refine Iff.trans (w3 c) ?_
      rw [r4]
    rw [e1, e2]
    constructor
    · rintro ((h | ⟨op, p, q⟩) | (h | ⟨op, p, q⟩))
      · exact Or.inl (Or.inl h)
      · rw [hm op (hre op p)] at q; exact Or.inr ⟨op, hre op p, q, Or.inl p⟩
      · exact Or.inl (Or.inr h)
      · rw [hm op (hwe op p)] at q; exact Or.inr ⟨op, hwe op p, q, Or.inr p⟩
    · rintro ((h | h) | ⟨op, p, q, h | h⟩)
      · exact Or.inl (Or.inl h)
      · exact Or.inr (Or.inl h)
      · exact Or.inl (Or.inr ⟨op, h, by rw [hm op p, q]⟩)
      · exact Or.inr (Or.inr ⟨op, h, by rw [hm op p, q]⟩)

/-! ## One pass -/

theorem succ_cons (call : List CopyOp × Stats) (tr : Calls) (c : Nat) :
    Succ (call :: tr) c ↔ (∃ op ∈ call.1, op.src = c ∧ op ∉ call.2.readErrors ∧ op ∉ call.2.writeErrors) ∨ Succ tr c := by
  unfold Succ; simp

theorem fail_cons (call : List CopyOp × Stats) (tr : Calls) (c : Nat) :
    Fail (call :: tr) c ↔ (∃ op ∈ call.1, op.src = c ∧ (op ∈ call.2.readErrors ∨ op ∈ call.2.writeErrors)) ∨ Fail tr c := by
  unfold Fail; simp

theorem succ_append (t1 t2 : Calls) (c : Nat) : Succ (t1 ++ t2) c ↔ Succ t1 c ∨ Succ t2 c := by
  induction t1 with
  | nil => simp [Succ]
  | cons x t1 ih => rw [List.cons_append, succ_cons, succ_cons, ih, or_assoc]

theorem fail_append (t1 t2 : Calls) (c : Nat) : Fail (t1 ++ t2) c ↔ Fail t1 c ∨ Fail t2 c := by
  induction t1 with
  | nil => simp [Fail]
  | cons x t1 ih => rw [List.cons_append, fail_cons, fail_cons, ih, or_assoc]

theorem run_spec {σ γ : Type} {v : View σ γ} {copy : Copy σ} (hc : CopierOk v copy) {msgs : List (List CopyOp)} {x : Sets} {s t : σ} {r : Option Sets} {tr : Calls}
    (h : Run copy msgs x s t r tr) : ∀ {y : Sets}, r = some y → x.Inc → (msgs.flatten.map (·.src)).Nodup → (∀ op ∈ msgs.flatten, op.src < 2 ^ 32) →
    (∀ op ∈ msgs.flatten, op.src ∉ x.cleaned) → (msgs.flatten.map (·.dst)).Nodup →
    y.Inc ∧ tr.map (·.1) = msgs ∧ (∀ c, c ∈ y.cleaned ↔ c ∈ x.cleaned ∨ Succ tr c) ∧
    (∀ c, (c ∈ y.readFailed ∨ c ∈ y.writeFailed) ↔ (c ∈ x.readFailed ∨ c ∈ x.writeFailed) ∨ Fail tr c) ∧
    (∀ call ∈ tr, ∀ op ∈ call.1, op ∉ call.2.readErrors → op ∉ call.2.writeErrors → v.dst t op.dst = v.src s op.src) ∧
    (∀ o, (∀ op ∈ msgs.flatten, op.dst ≠ o) → v.dst t o = v.dst s o) ∧ ∀ c, v.src t c = v.src s c := by
  induction h with
  | closed x s =>
    intro y hy hx _ _ _ _
    cases hy
    refine ⟨hx, rfl, ?_, ?_, ?_, fun _ _ => rfl, fun _ => rfl⟩
    · intro c; simp [Succ]
    · intro c; simp [Fail]
    · intro call hcall; cases hcall
  | failed _ => intro y hy; cases hy
  | @next ops msgs x s t u st r tr hcp hrun ih =>
    intro y hy hx hn h32 hnew hd
    rw [List.flatten_cons, List.map_append] at hn hd
    have hn1 := (List.nodup_append.mp hn).1
    have hn2 := (List.nodup_append.mp hn).2.1
    have hn3 := (List.nodup_append.mp hn).2.2
    have hd1 := (List.nodup_append.mp hd).1
    have hd2 := (List.nodup_append.mp hd).2.1
    have hd3 := (List.nodup_append.mp hd).2.2
    have hm1 : ∀ op ∈ ops, op ∈ (ops :: msgs).flatten := fun op h => by rw [List.flatten_cons]; exact List.mem_append_left _ h
    have hm2 : ∀ op ∈ msgs.flatten, op ∈ (ops :: msgs).flatten := fun op h => by rw [List.flatten_cons]; exact List.mem_append_right _ h
    obtain ⟨a1, a2, a3⟩ := account_spec hx hn1 (fun op h => h32 op (hm1 op h)) (fun op h => hnew op (hm1 op h)) (hc.errors hd1 hcp)
    obtain ⟨b1, b2, b3, b4, b5, b6, b7⟩ := ih hy a1 hn2 (fun op h => h32 op (hm2 op h)) (by
      intro op hop hin
      rcases (a2 _).mp hin with h | ⟨o, p, q, -⟩
      · exact hnew op (hm2 op hop) h
      · exact hn3 o.src (List.mem_map.mpr ⟨o, p, rfl⟩) op.src (List.mem_map.mpr ⟨op, hop, rfl⟩) q) hd2
    refine ⟨b1, by rw [List.map_cons, b2], ?_, ?_, ?_, ?_, ?_⟩
    · intro c
      rw [b3, a2, succ_cons, or_assoc]
    · intro c
      rw [b4, a3, fail_cons, or_assoc]
    · intro call hcall op hop hre hwe
      rcases List.mem_cons.mp hcall with rfl | hcall
      · rw [b6 op.dst (by
          intro p hp e
          exact hd3 op.dst (List.mem_map.mpr ⟨op, hop, rfl⟩) p.dst (List.mem_map.mpr ⟨p, hp, rfl⟩) e.symm)]
        exact hc.each hd1 hcp op hop hre hwe
      · rw [b5 call hcall op hop hre hwe, hc.source hd1 hcp]
    · intro o ho
      rw [b6 o (fun p hp => ho p (hm2 p hp)), hc.frame hd1 hcp o (fun p hp => ho p (hm1 p hp))]
    · intro c
      rw [b7, hc.source hd1 hcp]

/-- origin blocks are not shared by the blocks of `N` -/
def Distinct (a : Nat → Nat) (N : List Nat) : Prop := ∀ c ∈ N, ∀ c' ∈ N, (ofWord (a c)).oblock = (ofWord (a c')).oblock → c = c'

theorem map_nodup {α β : Type} {f : α → β} {l : List α} (hl : l.Nodup) (hf : ∀ x ∈ l, ∀ y ∈ l, f x = f y → x = y) : (l.map f).Nodup := by
  induction l with
  | nil => exact List.nodup_nil
  | cons x l ih =>
    obtain ⟨h1, h2⟩ := List.nodup_cons.mp hl
    rw [List.map_cons, List.nodup_cons]
    refine ⟨?_, ih h2 (fun a ha b hb => hf a (by simp [ha]) b (by simp [hb]))⟩
    intro hm
    obtain ⟨y, hy, e⟩ := List.mem_map.mp hm
    have := hf y (by simp [hy]) x (by simp) e
    exact h1 (this ▸ hy)

/-- what a pass over the blocks `cs` does -/
structure Passed {σ γ : Type} (v : View σ γ) (a : Nat → Nat) (cs : List Nat) (s t : σ) (y : Sets) (tr : Calls) : Prop where
  inc : y.Inc
  cleaned : ∀ c, c ∈ y.cleaned ↔ Succ tr c
  failed : ∀ c, (c ∈ y.readFailed ∨ c ∈ y.writeFailed) ↔ Fail tr c
  all : ∀ c, c ∈ cs ↔ Succ tr c ∨ Fail tr c
  one : ∀ c, Succ tr c → ¬ Fail tr c
  copied : ∀ c, Succ tr c → v.dst t (ofWord (a c)).oblock = v.src s c
  frame : ∀ o, (∀ c ∈ cs, (ofWord (a c)).oblock ≠ o) → v.dst t o = v.dst s o
  source : ∀ c, v.src t c = v.src s c
  calls : ∀ call ∈ tr, ∀ op ∈ call.1, op.src ∈ cs ∧ op = opOf a op.src

theorem pass_spec {σ γ : Type} {v : View σ γ} {copy : Copy σ} (hc : CopierOk v copy) {a : Nat → Nat} {cs : List Nat} (hinc : Inc cs) (h32 : ∀ c ∈ cs, c < 2 ^ 32)
    (hd : Distinct a cs) {s t : σ} {y : Sets} {tr : Calls} (h : Pass copy (cs.map (opOf a)) s t (some y) tr) : Passed v a cs s t y tr := by
  have hp := (CopyQ.batches_correct 1000000 (by decide) (cs.map (opOf a))).1
  have hsrc : (cs.map (opOf a)).map (·.src) = cs := by rw [List.map_map]; exact List.map_id'' (fun _ => rfl) cs
  have hmem : ∀ op, op ∈ (CopyQ.batches 1000000 (cs.map (opOf a))).flatten ↔ op.src ∈ cs ∧ op = opOf a op.src := by
    intro op
    rw [hp.mem_iff, List.mem_map]
    constructor
    · rintro ⟨c, h1, rfl⟩; exact ⟨h1, rfl⟩
    · rintro ⟨h1, h2⟩; exact ⟨op.src, h1, h2.symm⟩
  have hns : ((CopyQ.batches 1000000 (cs.map (opOf a))).flatten.map (·.src)).Nodup := by
    refine (hp.map (·.src)).nodup_iff.mpr ?_
    rw [hsrc]; exact hinc.nodup
  have hnd : ((CopyQ.batches 1000000 (cs.map (opOf a))).flatten.map (·.dst)).Nodup := by
    refine (hp.map (·.dst)).nodup_iff.mpr ?_
    rw [List.map_map]
    exact map_nodup hinc.nodup hd
  obtain ⟨b1, b2, b3, b4, b5, b6, b7⟩ := run_spec hc h rfl ⟨List.Pairwise.nil, List.Pairwise.nil, List.Pairwise.nil⟩ hns (fun op ho => h32 _ ((hmem op).mp ho).1)
    (fun op _ h => by cases h) hnd
  have hflat : ∀ call ∈ tr, ∀ op ∈ call.1, op ∈ (CopyQ.batches 1000000 (cs.map (opOf a))).flatten := by
    intro call hcall op hop
    rw [← b2]
    exact List.mem_flatten.mpr ⟨call.1, List.mem_map.mpr ⟨call, hcall, rfl⟩, hop⟩
  have hwhere : ∀ op ∈ (CopyQ.batches 1000000 (cs.map (opOf a))).flatten, ∃ call ∈ tr, op ∈ call.1 := by
    intro op hop
    rw [← b2] at hop
    obtain ⟨l, h1, h2⟩ := List.mem_flatten.mp hop
    obtain ⟨call, h3, rfl⟩ := List.mem_map.mp h1
    exact ⟨call, h3, h2⟩
  -- an operation is in one call only
  have huniq : ∀ (tr : Calls), ((tr.map (·.1)).flatten.map (·.src)).Nodup → ∀ c, Succ tr c → ¬ Fail tr c := by
    intro tr
    induction tr with
    | nil => rintro _ c ⟨call, h, -⟩; cases h
    | cons call tr ih =>
      intro hn c hs hf
      rw [List.map_cons, List.flatten_cons, List.map_append] at hn
      obtain ⟨n1, n2, n3⟩ := List.nodup_append.mp hn
      have cross : ∀ op ∈ call.1, op.src = c → ∀ k ∈ tr, ∀ q ∈ k.1, q.src = c → False := by
        intro op hop e k hk q hq e'
        exact n3 op.src (List.mem_map.mpr ⟨op, hop, rfl⟩) q.src (List.mem_map.mpr ⟨q, List.mem_flatten.mpr ⟨k.1, List.mem_map.mpr ⟨k, hk, rfl⟩, hq⟩, rfl⟩) (e.trans e'.symm)
      rcases (succ_cons _ _ _).mp hs with ⟨op, h1, h2, h3, h4⟩ | hs'
      · rcases (fail_cons _ _ _).mp hf with ⟨q, g1, g2, g3⟩ | ⟨k, hk, q, hq, g2, -⟩
        · have : op = q := by
            obtain ⟨i, hi, rfl⟩ := List.mem_iff_getElem.mp h1
            obtain ⟨j, hj, rfl⟩ := List.mem_iff_getElem.mp g1
            have : i = j := (List.getElem?_inj (by simpa using hi) n1).mp (by
              rw [List.getElem?_map, List.getElem?_map, List.getElem?_eq_getElem hi, List.getElem?_eq_getElem hj]
              simp [h2, g2])
            subst this
            rfl
          subst this
          rcases g3 with g3 | g3
          · exact h3 g3
          · exact h4 g3
        · exact cross op h1 h2 k hk q hq g2
      · obtain ⟨k, hk, q, hq, g2, g3⟩ := hs'
        rcases (fail_cons _ _ _).mp hf with ⟨op, h1, h2, -⟩ | hf'
        · exact cross op h1 h2 k hk q hq g2
        · exact ih n2 c ⟨k, hk, q, hq, g2, g3⟩ hf'
  refine ⟨b1, ?_, ?_, ?_, huniq tr (by rw [b2]; exact hns), ?_, ?_, b7, ?_⟩
  · intro c; rw [b3]; simp
  · intro c; rw [b4]; simp
  · intro c
    constructor
    · intro h
      obtain ⟨call, h1, h2⟩ := hwhere (opOf a c) ((hmem _).mpr ⟨h, rfl⟩)
      by_cases hr : opOf a c ∈ call.2.readErrors
      · exact Or.inr ⟨call, h1, _, h2, rfl, Or.inl hr⟩
      · by_cases hw : opOf a c ∈ call.2.writeErrors
        · exact Or.inr ⟨call, h1, _, h2, rfl, Or.inr hw⟩
        · exact Or.inl ⟨call, h1, _, h2, rfl, hr, hw⟩
    · rintro (⟨call, h1, op, h2, rfl, -⟩ | ⟨call, h1, op, h2, rfl, -⟩)
      · exact ((hmem op).mp (hflat call h1 op h2)).1
      · exact ((hmem op).mp (hflat call h1 op h2)).1
  · rintro c ⟨call, h1, op, h2, rfl, h3, h4⟩
    have e := ((hmem op).mp (hflat call h1 op h2)).2
    have := b5 call h1 op h2 h3 h4
    rw [e] at this
    rw [show op.src = (opOf a op.src).src from rfl]
    exact this
  · intro o ho
    refine b6 o ?_
    intro op hop e
    obtain ⟨h1, h2⟩ := (hmem op).mp hop
    rw [h2] at e
    exact ho op.src h1 e
  · intro call h1 op h2
    exact (hmem op).mp (hflat call h1 op h2)

/-! ## All passes -/

/-- the state between passes over the blocks `N` to be written back, started with the devices `s0` -/
structure Prog {σ γ : Type} (v : View σ γ) (a : Nat → Nat) (N : List Nat) (s0 s : σ) (x : Sets) (tr : Calls) : Prop where
  inc : x.Inc
  all : ∀ c, c ∈ N ↔ c ∈ x.cleaned ∨ (c ∈ x.readFailed ∨ c ∈ x.writeFailed)
  one : ∀ c, c ∈ x.cleaned → ¬ (c ∈ x.readFailed ∨ c ∈ x.writeFailed)
  succ : ∀ c, c ∈ x.cleaned ↔ Succ tr c
  copied : ∀ c ∈ x.cleaned, v.dst s (ofWord (a c)).oblock = v.src s0 c
  frame : ∀ o, (∀ c ∈ N, (ofWord (a c)).oblock ≠ o) → v.dst s o = v.dst s0 o
  source : ∀ c, v.src s c = v.src s0 c
  fails : ∀ c, (c ∈ x.readFailed ∨ c ∈ x.writeFailed) → Fail tr c
  calls : ∀ call ∈ tr, ∀ op ∈ call.1, op.src ∈ N ∧ op = opOf a op.src

theorem Passed.first {σ γ : Type} {v : View σ γ} {a : Nat → Nat} {N : List Nat} {s t : σ} {y : Sets} {tr : Calls} (h : Passed v a N s t y tr) :
    Prog v a N s t y tr where
  inc := h.inc
  all := fun c => by rw [h.all, h.cleaned, h.failed]
  one := fun c hc => by rw [h.failed]; exact h.one c ((h.cleaned c).mp hc)
  succ := h.cleaned
  copied := fun c hc => h.copied c ((h.cleaned c).mp hc)
  frame := h.frame
  source := h.source
  fails := fun c hc => (h.failed c).mp hc
  calls := h.calls

theorem Prog.again {σ γ : Type} {v : View σ γ} {a : Nat → Nat} {N : List Nat} (hd : Distinct a N) {s0 s t : σ} {x y : Sets} {tr tr' : Calls} (h : Prog v a N s0 s x tr)
    (hp : Passed v a (union x.readFailed x.writeFailed) s t y tr') : Prog v a N s0 t { y with cleaned := union x.cleaned y.cleaned } (tr ++ tr') := by
  have hF : ∀ c, c ∈ union x.readFailed x.writeFailed ↔ (c ∈ x.readFailed ∨ c ∈ x.writeFailed) := fun c => mem_union _ _ _
  have hFN : ∀ c, c ∈ union x.readFailed x.writeFailed → c ∈ N := fun c hc => (h.all c).mpr (Or.inr ((hF c).mp hc))
  constructor
  · exact ⟨union_inc _ _ h.inc.cleaned, hp.inc.read, hp.inc.write⟩
  · intro c
    simp only
    rw [mem_union, h.all, ← hF, hp.all, hp.cleaned, hp.failed, or_assoc]
  · intro c hc
    simp only at hc ⊢
    rw [hp.failed]
    rcases (mem_union _ _ _).mp hc with hc | hc
    · intro hf
      exact h.one c hc ((hF c).mp ((hp.all c).mpr (Or.inr hf)))
    · exact hp.one c ((hp.cleaned c).mp hc)
  · intro c
    simp only
    rw [mem_union, succ_append, h.succ, hp.cleaned]
  · intro c hc
    rcases (mem_union _ _ _).mp hc with hc | hc
    · rw [hp.frame, h.copied c hc]
      intro c' hc' e
      have := hd c' (hFN c' hc') c ((h.all c).mpr (Or.inl hc)) e
      subst this
      exact h.one c' hc ((hF c').mp hc')
    · rw [hp.copied c ((hp.cleaned c).mp hc), h.source]
  · intro o ho
    rw [hp.frame o (fun c hc => ho c (hFN c hc)), h.frame o ho]
  · intro c
    rw [hp.source, h.source]
  · intro c hc
    exact (fail_append _ _ _).mpr (Or.inr ((hp.failed c).mp hc))
  · intro call hcall op hop
    rcases List.mem_append.mp hcall with hcall | hcall
    · exact h.calls call hcall op hop
    · obtain ⟨h1, h2⟩ := hp.calls call hcall op hop
      exact ⟨hFN _ h1, h2⟩

section
variable {σ γ : Type} {v : View σ γ} {epb epb4 nr n : Nat} {a : Nat → Nat} {root : Nat} {m : ASt Nat} {h : Nat} {t : Tree Nat h} {blocks : List Nat}

theorem retry_spec {copy : Copy σ} (hc : CopierOk v copy) (he : 0 < epb) (hs : Stored epb nr n a root m h t blocks) (h0 : 0 < nr) (h32 : nr < 2 ^ 32) {N : List Nat}
    (hN : ∀ c ∈ N, c < nr) (hd : Distinct a N) {s0 s u : σ} {k : Nat} {x : Sets} {r : Except DErr Sets} {tr' : Calls}
    (hr : Retry copy (devOf epb epb4 n m) epb root k x s u r tr') : ∀ {tr : Calls} {y : Sets}, r = .ok y → Prog v a N s0 s x tr → Prog v a N s0 u y (tr ++ tr') := by
  induction hr with
  | clean s _ _ => intro tr y hy hp; cases hy; rw [List.append_nil]; exact hp
  | enough s => intro tr y hy hp; cases hy; rw [List.append_nil]; exact hp
  | error _ _ => intro tr y hy; cases hy
  | @again k x y s t u r tr1 tr2 hne hsel hrest ih =>
    intro tr z hz hp
    rw [← List.append_assoc]
    refine ih hz ?_
    cases hsel with
    | ok h1 h2 =>
      have hFN : ∀ c ∈ union x.readFailed x.writeFailed, c ∈ N := fun c hc => (hp.all c).mpr (Or.inr ((mem_union _ _ _).mp hc))
      rw [selectedOps_stored he hs h0 _ (fun c hc => hN c (hFN c hc))] at h1
      cases h1
      refine hp.again hd (pass_spec hc (union_inc _ _ hp.inc.read) (fun c hc => ?_) (fun c hc c' hc' e => hd c (hFN c hc) c' (hFN c' hc') e) h2)
      have := hN c (hFN c hc)
      omega

/-- after copying: the state of every block that was to be written back -/
theorem copyDirty_spec {copyV copyS copyR : Copy σ} (hV : CopierOk v copyV) (hS : CopierOk v copyS) (hR : CopierOk v copyR) {epb4 : Nat} (he : 0 < epb)
    {sb : Cache.Superblock} {am ad : Nat → Nat} (hdk : MapsOnDisk epb n sb m am ad) (hv : sb.version = 1 ∨ sb.version = 2)
    (h0 : 0 < sb.cache_blocks) (h32 : sb.cache_blocks < 2 ^ 32) (hd : Distinct am (wanted sb am ad)) {retries k : Nat} {s u : σ} {x : Sets} {tr : Calls}
    (h : CopyDirty copyV copyS copyR (devOf epb epb4 n m) sb epb retries s u (.ok (k, x)) tr) : k = target sb am ad ∧ Prog v am (wanted sb am ad) s u x tr := by
  obtain ⟨sel, s1, s2, s3⟩ := select_stored he hdk hv h32
  obtain ⟨_, _, _, hm⟩ := hdk.maps
  have hN : ∀ c ∈ wanted sb am ad, c < sb.cache_blocks := fun c hc => (mem_wanted.mp hc).1
  cases h with
  | ok h1 h2 h3 =>
    cases h1 with
    | ok g1 g2 g3 =>
      rw [s1] at g1
      cases g1
      rw [s3] at g2
      cases g2
      have p1 := (pass_spec hV (wanted_inc sb am ad) (fun c hc => by have := hN c hc; omega) hd g3).first
      have p2 := retry_spec (epb4 := epb4) hS he hm h0 h32 hN hd h2 rfl p1
      have p3 := retry_spec (epb4 := epb4) hR he hm h0 h32 hN hd h3 rfl p2
      exact ⟨s2, p3⟩

end

/-! ## The metadata -/

/-- The metadata `d'` is the metadata `d` with the dirty flags of `Q` cleared. -/
structure Cleared (epb : Nat) (sb : Cache.Superblock) (bm bd : List Nat) (d d' : Dev) (am ad : Nat → Nat) (Q : List Nat) (am' ad' : Nat → Nat) : Prop where
  maps : Holds epb sb.cache_blocks bm d.maps d'.maps am'
  words : sb.version = 2 → Holds epb (divUp sb.cache_blocks 64) bd d.words d'.words ad'
  others : d'.nr = d.nr ∧ d'.rd = d.rd ∧ d'.hints = d.hints ∧ (sb.version = 1 → d'.words = d.words)
  dirty : ∀ c, dirtyOf sb.version am' ad' c = (dirtyOf sb.version am ad c && decide (c ∉ Q))
  mapping : ∀ c, (ofWord (am' c)).oblock = (ofWord (am c)).oblock ∧ (ofWord (am' c)).isValid = (ofWord (am c)).isValid
  untouched : ∀ c, c ∉ Q → am' c = am c

/-- the arrays of the metadata, with the array blocks that hold them -/
structure Disk (epb8 n : Nat) (sb : Cache.Superblock) (s : ASt Nat) (am ad : Nat → Nat) (bm bd : List Nat) : Prop where
  version : sb.version = 1 ∨ sb.version = 2
  size : 0 < sb.cache_blocks ∧ sb.cache_blocks < 2 ^ 32
  maps : ∃ (h : Nat) (t : Tree Nat h), Stored epb8 sb.cache_blocks n am sb.mapping_root s h t bm
  mapsOnce : bm.Nodup
  dirty : sb.version = 2 → ∃ dr, sb.dirty_root = some dr ∧ ∃ (h : Nat) (t : Tree Nat h), Stored epb8 (divUp sb.cache_blocks 64) n ad dr s h t bd
  dirtyOnce : bd.Nodup
  fits : ∀ c, am c < 2 ^ 64

theorem cleanWord_spec {w : Nat} (hw : w < 2 ^ 64) : (ofWord (cleanWord w)).isDirty = false ∧ (ofWord (cleanWord w)).isValid = (ofWord w).isValid ∧
    (ofWord (cleanWord w)).oblock = (ofWord w).oblock := by
  have hf := ofWord_flags w
  have ho : (ofWord w).oblock < 2 ^ 48 := by
    show w >>> 16 < 2 ^ 48
    rw [Nat.shiftRight_eq_div_pow, Nat.div_lt_iff_lt_mul (by decide)]
    exact hw
  obtain ⟨h1, h2, h3, h4, h5⟩ := mapping_setDirty (ofWord w) (by omega) false
  have hf' : ((ofWord w).setDirty false).flags < 2 ^ 16 := by
    show (ofWord w).flags &&& (2 ^ 32 - 3) < 2 ^ 16
    exact Nat.lt_of_le_of_lt Nat.and_le_left hf
  unfold cleanWord
  have e : (ofWord w).setDirty false = ⟨((ofWord w).setDirty false).oblock, ((ofWord w).setDirty false).flags⟩ := rfl
  rw [e, word_roundtrip (by rw [h3]; exact ho) hf', ← e]
  exact ⟨h1, h2, h3⟩

section
variable {epb epb4 n : Nat} {sb : Cache.Superblock} {m : ASt Nat} {am ad : Nat → Nat} {bm bd : List Nat}

theorem Disk.disk (hk : Disk epb n sb m am ad bm bd) : MapsOnDisk epb n sb m am ad := by
  refine ⟨?_, fun hv => ?_⟩
  · obtain ⟨h, t, hs⟩ := hk.maps
    exact ⟨h, t, bm, hs⟩
  · obtain ⟨dr, e, h, t, hs⟩ := hk.dirty hv
    exact ⟨dr, e, h, t, bd, hs⟩

theorem Disk.same (hk : Disk epb n sb m am ad bm bd) : Cleared epb sb bm bd (devOf epb epb4 n m) (devOf epb epb4 n m) am ad [] am ad := by
  obtain ⟨_, _, h1⟩ := hk.maps
  refine ⟨stored_holds h1, ?_, ⟨rfl, rfl, rfl, fun _ => rfl⟩, fun c => by simp, fun c => ⟨rfl, rfl⟩, fun _ _ => rfl⟩
  intro hv
  obtain ⟨_, _, _, _, h2⟩ := hk.dirty hv
  exact stored_holds (epb4 := epb4) h2

/-- the update clears the flags of the cleaned blocks; if a write fails, of some of them -/
theorem updateMetadata_spec (wok : Nat → Bool) (he : 0 < epb) (hk : Disk epb n sb m am ad bm bd) (cleaned : List Nat) (hc : Inc cleaned)
    (hlt : ∀ c ∈ cleaned, c < sb.cache_blocks) :
    ∃ Q am' ad', (∀ c ∈ Q, c ∈ cleaned) ∧ Cleared epb sb bm bd (devOf epb epb4 n m) (updateMetadata wok (devOf epb epb4 n m) sb epb cleaned).2 am ad Q am' ad' ∧
      ((updateMetadata wok (devOf epb epb4 n m) sb epb cleaned).1 = none → Q = cleaned) ∧
      ((updateMetadata wok (devOf epb epb4 n m) sb epb cleaned).1 ≠ none → ∃ k, wok k = false) := by
  have h1 : ∀ (Q : List Nat) (mem : Nat → Option ABlock), sb.version = 1 → Holds epb sb.cache_blocks bm (devOf epb epb4 n m).maps mem (cleanArr Q am) →
      Cleared epb sb bm bd (devOf epb epb4 n m) { devOf epb epb4 n m with maps := mem } am ad Q (cleanArr Q am) ad := by
    intro Q mem hv hh
    refine ⟨hh, fun e => by omega, ⟨rfl, rfl, rfl, fun _ => rfl⟩, ?_, ?_, ?_⟩
    · intro c
      unfold dirtyOf cleanArr
      rw [if_pos hv, if_pos hv]
      by_cases hq : c ∈ Q
      · rw [if_pos hq, (cleanWord_spec (hk.fits c)).1]; simp [hq]
      · rw [if_neg hq]; simp [hq]
    · intro c
      unfold cleanArr
      by_cases hq : c ∈ Q
      · rw [if_pos hq]; exact ⟨(cleanWord_spec (hk.fits c)).2.2, (cleanWord_spec (hk.fits c)).2.1⟩
      · rw [if_neg hq]; exact ⟨rfl, rfl⟩
    · intro c hq
      unfold cleanArr
      rw [if_neg hq]
  have h2 : ∀ (Q : List Nat) (mem : Nat → Option ABlock), sb.version = 2 → Holds epb (divUp sb.cache_blocks 64) bd (devOf epb epb4 n m).words mem (clearArr Q ad) →
      Cleared epb sb bm bd (devOf epb epb4 n m) { devOf epb epb4 n m with words := mem } am ad Q am (clearArr Q ad) := by
    intro Q mem hv hh
    obtain ⟨_, _, g1⟩ := hk.maps
    refine ⟨stored_holds g1, fun _ => hh, ⟨rfl, rfl, rfl, fun e => by omega⟩, ?_, fun c => ⟨rfl, rfl⟩, fun _ _ => rfl⟩
    intro c
    unfold dirtyOf
    rw [if_neg (by omega), if_neg (by omega), clearArr_bit]
  unfold updateMetadata
  rcases hk.version with hv | hv
  · rw [if_pos hv]
    obtain ⟨_, _, g1⟩ := hk.maps
    have hu := updateV1_stored (epb4 := epb4) wok he hk.size.1 g1 hk.mapsOnce cleaned hc hlt
    revert hu
    cases updateV1 wok (devOf epb epb4 n m) epb sb.mapping_root cleaned with
    | ok u => intro hu; exact ⟨cleaned, _, _, fun _ h => h, h1 cleaned u.mem hv hu, fun _ => rfl, fun h => absurd rfl h⟩
    | error e =>
      obtain ⟨e, u⟩ := e
      rintro ⟨-, q1, Q, q2, q3⟩
      exact ⟨Q, _, _, q2, h1 Q u.mem hv q3, fun h => (by cases h), fun _ => q1⟩
  · rw [if_neg (by omega), if_pos hv]
    obtain ⟨dr, hdr, _, _, g2⟩ := hk.dirty hv
    rw [hdr]
    simp only
    have hu := updateV2_stored (epb4 := epb4) wok he g2 hk.dirtyOnce cleaned hc (fun c hcm => by
      rw [Arr.lt_divUp (by decide)]
      have := hlt c hcm
      have := Nat.div_mul_le_self c 64
      omega)
    revert hu
    cases updateV2 wok (devOf epb epb4 n m) dr cleaned with
    | ok u => intro hu; exact ⟨cleaned, _, _, fun _ h => h, h2 cleaned u.mem hv hu, fun _ => rfl, fun h => absurd rfl h⟩
    | error e =>
      obtain ⟨e, u⟩ := e
      rintro ⟨-, q1, Q, q2, q3⟩
      exact ⟨Q, _, _, q2, h2 Q u.mem hv q3, fun h => (by cases h), fun _ => q1⟩

/-! ## The tool -/

section
variable {σ γ : Type} {v : View σ γ} {copyV copyS copyR : Copy σ}

/-- C35: whatever fails, every block whose dirty flag was cleared had to be written back, was copied by some call without an error, and the origin has its content;
nothing else of the metadata has changed.  The fast device is never written. -/
theorem writeback_safe (hV : CopierOk v copyV) (hS : CopierOk v copyS) (hR : CopierOk v copyR) (he : 0 < epb) (hk : Disk epb n sb m am ad bm bd)
    (hd : Distinct am (wanted sb am ad)) {wok : Nat → Bool} {retries : Nat} {aligned update : Bool} {s t : σ} {res : Option DErr} {d' : Dev} {tr : Calls}
    (h : Writeback copyV copyS copyR wok (devOf epb epb4 n m) sb epb retries aligned update s t (res, d') tr) :
    ∃ Q am' ad', Cleared epb sb bm bd (devOf epb epb4 n m) d' am ad Q am' ad' ∧
      ∀ c ∈ Q, Wanted sb am ad c ∧ Succ tr c ∧ v.dst t (ofWord (am c)).oblock = v.src s c := by
  have none' : ∃ Q am' ad', Cleared epb sb bm bd (devOf epb epb4 n m) (devOf epb epb4 n m) am ad Q am' ad' ∧
      ∀ c ∈ Q, Wanted sb am ad c ∧ Succ tr c ∧ v.dst t (ofWord (am c)).oblock = v.src s c := ⟨[], am, ad, hk.same, fun c hc => by cases hc⟩
  have upd : ∀ {k : Nat} {x : Sets}, CopyDirty copyV copyS copyR (devOf epb epb4 n m) sb epb retries s t (.ok (k, x)) tr →
      d' = (updateMetadata wok (devOf epb epb4 n m) sb epb x.cleaned).2 → ∃ Q am' ad', Cleared epb sb bm bd (devOf epb epb4 n m) d' am ad Q am' ad' ∧
      ∀ c ∈ Q, Wanted sb am ad c ∧ Succ tr c ∧ v.dst t (ofWord (am c)).oblock = v.src s c := by
    intro k x hcd he'
    obtain ⟨-, p⟩ := copyDirty_spec hV hS hR he hk.disk hk.version hk.size.1 hk.size.2 hd hcd
    have hin : ∀ c ∈ x.cleaned, Wanted sb am ad c := fun c hc => mem_wanted.mp ((p.all c).mpr (Or.inl hc))
    obtain ⟨Q, am', ad', q1, q2, -, -⟩ := updateMetadata_spec wok he hk x.cleaned p.inc.cleaned (fun c hc => (hin c hc).1)
    exact ⟨Q, am', ad', by rw [he']; exact q2, fun c hc => ⟨hin c (q1 c hc), (p.succ c).mp (q1 c hc), p.copied c (q1 c hc)⟩⟩
  cases h with
  | version => exact none'
  | offsets => exact none'
  | copying => exact none'
  | updating _ _ _ h1 h2 => exact upd h1 (by rw [h2])
  | updated _ _ _ h1 h2 => exact upd h1 (by rw [h2])
  | kept => exact none'

/-- C35: success is reported only if every block that had to be written back was copied, and then all of their dirty flags are clear (unless the metadata was not to be
updated) and no other flag has changed. -/
theorem writeback_success (hV : CopierOk v copyV) (hS : CopierOk v copyS) (hR : CopierOk v copyR) (he : 0 < epb) (hk : Disk epb n sb m am ad bm bd)
    (hd : Distinct am (wanted sb am ad)) {wok : Nat → Bool} {retries : Nat} {aligned update : Bool} {s t : σ} {d' : Dev} {tr : Calls}
    (h : Writeback copyV copyS copyR wok (devOf epb epb4 n m) sb epb retries aligned update s t (none, d') tr) :
    (∀ c, Wanted sb am ad c → v.dst t (ofWord (am c)).oblock = v.src s c) ∧
    (∀ o, (∀ c, Wanted sb am ad c → (ofWord (am c)).oblock ≠ o) → v.dst t o = v.dst s o) ∧ (∀ c, v.src t c = v.src s c) ∧
    (update = false → d' = devOf epb epb4 n m) ∧
    (update = true → ∃ am' ad', Cleared epb sb bm bd (devOf epb epb4 n m) d' am ad (wanted sb am ad) am' ad') := by
  have key : ∀ {k : Nat} {x : Sets}, CopyDirty copyV copyS copyR (devOf epb epb4 n m) sb epb retries s t (.ok (k, x)) tr → x.cleaned.length = k →
      Prog v am (wanted sb am ad) s t x tr ∧ x.cleaned = wanted sb am ad := by
    intro k x hcd hl
    obtain ⟨hk', p⟩ := copyDirty_spec hV hS hR he hk.disk hk.version hk.size.1 hk.size.2 hd hcd
    refine ⟨p, ?_⟩
    have h1 := wanted_le_target sb am ad
    have hsub : ∀ c ∈ x.cleaned, c ∈ wanted sb am ad := fun c hc => (p.all c).mpr (Or.inl hc)
    have hall : ∀ c ∈ wanted sb am ad, c ∈ x.cleaned := by
      intro c hc
      refine Classical.byContradiction fun hn => ?_
      have : (c :: x.cleaned).length ≤ (wanted sb am ad).length := List.Nodup.length_le_of_subset (List.nodup_cons.mpr ⟨hn, p.inc.cleaned.nodup⟩) (by
        intro y hy
        rcases List.mem_cons.mp hy with rfl | hy
        · exact hc
        · exact hsub y hy)
      rw [List.length_cons] at this
      omega
    refine List.Perm.eq_of_pairwise (le := (· < ·)) (fun a b _ _ h1 h2 => absurd h1 (Nat.lt_asymm h2)) p.inc.cleaned (wanted_inc sb am ad)
      ((List.perm_ext_iff_of_nodup p.inc.cleaned.nodup (wanted_inc sb am ad).nodup).mpr fun c => ⟨hsub c, hall c⟩)
  have fin : ∀ {x : Sets}, Prog v am (wanted sb am ad) s t x tr → x.cleaned = wanted sb am ad →
      (∀ c, Wanted sb am ad c → v.dst t (ofWord (am c)).oblock = v.src s c) ∧
      (∀ o, (∀ c, Wanted sb am ad c → (ofWord (am c)).oblock ≠ o) → v.dst t o = v.dst s o) ∧ (∀ c, v.src t c = v.src s c) := by
    intro x p e
    exact ⟨fun c hc => p.copied c (by rw [e]; exact mem_wanted.mpr hc), fun o ho => p.frame o (fun c hc => ho c (mem_wanted.mp hc)), p.source⟩
  generalize hres : (none, d') = rr at h
  cases h with
  | version => cases hres
  | offsets => cases hres
  | copying => cases hres
  | updating => cases hres
  | @updated _ k x d'' _ _ _ hu h1 h2 =>
    by_cases hl : x.cleaned.length = k
    · rw [if_neg (by simp [hl])] at hres
      cases hres
      obtain ⟨p, e⟩ := key h1 hl
      obtain ⟨f1, f2, f3⟩ := fin p e
      refine ⟨f1, f2, f3, fun h => (by rw [hu] at h; cases h), fun _ => ?_⟩
      obtain ⟨Q, am', ad', q1, q2, q3, -⟩ := updateMetadata_spec wok he hk x.cleaned p.inc.cleaned (fun c hc => (mem_wanted.mp ((p.all c).mpr (Or.inl hc))).1)
      rw [h2] at q2 q3
      rw [q3 rfl, e] at q2
      exact ⟨am', ad', q2⟩
    · rw [if_pos hl] at hres
      cases hres
  | @kept _ k x _ _ _ hu h1 =>
    by_cases hl : x.cleaned.length = k
    · rw [if_neg (by simp [hl])] at hres
      cases hres
      obtain ⟨p, e⟩ := key h1 hl
      obtain ⟨f1, f2, f3⟩ := fin p e
      exact ⟨f1, f2, f3, fun _ => rfl, fun h => (by rw [hu] at h; cases h)⟩
    · rw [if_pos hl] at hres
      cases hres

/-- C35: when the copying comes to an end and the metadata can be written, the flags that are cleared are those of exactly the blocks that some call copied without an
error; the others were reported as failed by a call. -/
theorem writeback_exact (hV : CopierOk v copyV) (hS : CopierOk v copyS) (hR : CopierOk v copyR) (he : 0 < epb) (hk : Disk epb n sb m am ad bm bd)
    (hd : Distinct am (wanted sb am ad)) {wok : Nat → Bool} (hw : ∀ k, wok k = true) {retries : Nat} {s t : σ} {res : Option DErr} {d' : Dev} {tr : Calls}
    (h : Writeback copyV copyS copyR wok (devOf epb epb4 n m) sb epb retries true true s t (res, d') tr) :
    (d' = devOf epb epb4 n m ∧ ∃ e, res = some e ∧ CopyDirty copyV copyS copyR (devOf epb epb4 n m) sb epb retries s t (.error e) tr) ∨
    ∃ Q am' ad', Cleared epb sb bm bd (devOf epb epb4 n m) d' am ad Q am' ad' ∧ Q.Nodup ∧ (∀ c ∈ Q, Wanted sb am ad c) ∧ (∀ c, c ∈ Q ↔ Succ tr c) ∧ (∀ c, Wanted sb am ad c → c ∉ Q → Fail tr c) ∧
      (res = none ↔ Q.length = target sb am ad) := by
  have hv2 : ¬ sb.version > 2 := by have := hk.version; omega
  generalize hres : (res, d') = rr at h
  cases h with
  | version hgt => exact absurd hgt hv2
  | offsets _ h => cases h
  | copying _ _ h1 =>
    cases hres
    exact Or.inl ⟨rfl, _, rfl, h1⟩
  | kept _ _ h => cases h
  | @updating _ k x e d'' _ _ _ _ h1 h2 =>
    cases hres
    obtain ⟨-, p⟩ := copyDirty_spec hV hS hR he hk.disk hk.version hk.size.1 hk.size.2 hd h1
    obtain ⟨Q, am', ad', -, -, -, q4⟩ := updateMetadata_spec wok he hk x.cleaned p.inc.cleaned (fun c hc => (mem_wanted.mp ((p.all c).mpr (Or.inl hc))).1)
    rw [h2] at q4
    obtain ⟨j, hj⟩ := q4 (by simp)
    rw [hw j] at hj
    cases hj
  | @updated _ k x d'' _ _ _ _ h1 h2 =>
    obtain ⟨hk', p⟩ := copyDirty_spec hV hS hR he hk.disk hk.version hk.size.1 hk.size.2 hd h1
    obtain ⟨Q, am', ad', q1, q2, q3, -⟩ := updateMetadata_spec wok he hk x.cleaned p.inc.cleaned (fun c hc => (mem_wanted.mp ((p.all c).mpr (Or.inl hc))).1)
    rw [h2] at q2 q3
    have hq := q3 rfl
    subst hq
    obtain ⟨hr1, hr2⟩ := Prod.mk.inj hres
    subst hr2
    refine Or.inr ⟨x.cleaned, am', ad', q2, p.inc.cleaned.nodup, fun c hc => mem_wanted.mp ((p.all c).mpr (Or.inl hc)), p.succ, ?_, ?_⟩
    · intro c hc hn
      exact p.fails c (((p.all c).mp (mem_wanted.mpr hc)).resolve_left hn)
    · rw [hr1, hk']
      by_cases hl : x.cleaned.length = target sb am ad
      · simp [hl]
      · simp [hl]

end
end
end Verif.Wb
