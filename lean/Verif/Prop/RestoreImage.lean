import Verif.Prop.RestoreTrace
import Verif.Prop.ThinRestoreSm

/-!
# C78 for `thin_restore`: the image reaches the device

`Model/ThinRestoreSm.lean` says what a restore builds (`Image`), `Model/RestoreIo.lean` how blocks reach the device.  Here
the two are joined: the calls that the restorer, the builders and the space map writers make lead to the image, for every
document, batch size and device.
-/

namespace Verif.RTr

open Verif.Bld (St Err NB NIO Summary Item IfOk)
open Verif.BT (Blk)
open Verif.SMD (SSt SVal MRow Row)

/-- what a block can hold: nodes of the mapping and device trees; nodes of index trees of arrays and of the tree of
writesets, and array blocks (`cache_restore`, `era_restore`), with the size of a value in bytes (the model keeps values as
words, so only the encoding needs it); and the blocks of space maps -/
inductive Cell where
  | node (b : Blk Rst.Val)
  | inode (width : Nat) (b : Blk Nat)
  | arr (width : Nat) (vs : List Nat)
  | smNode (b : Blk SVal)
  | bitmap (es : List BE)
  | index (ies : List IndexEntry)

theorem Own.toU {C V : Type} {w : View C V} {a0 : A C} {U : List Nat} {ns : List Summary} {s : St V} (h : Own w a0 U ns s) :
    Own w a0 (U ++ ns.map (·.block)) [] s := by
  obtain ⟨a, tr, e, m, u, v⟩ := h
  refine ⟨a, tr, e, m, ?_, fun _ hm => by cases hm⟩
  intro b hb
  rcases List.mem_append.mp hb with hb | hb
  · exact u b hb
  · obtain ⟨x, hx, rfl⟩ := List.mem_map.mp hb
    exact v x hx

theorem Own.ofU {C V : Type} {w : View C V} {a0 : A C} {U : List Nat} {ns : List Summary} {s : St V} (h : Own w a0 (U ++ ns.map (·.block)) [] s) :
    Own w a0 U ns s := by
  obtain ⟨a, tr, e, m, u, v⟩ := h
  exact ⟨a, tr, e, m, fun b hb => u b (by simp [hb]), fun x hx => u _ (List.mem_append_right _ (List.mem_map_of_mem hx))⟩

/-! ## Blocks in use are not touched -/

section
variable {C : Type}

/-- the space map is sound, the blocks held are on the device and in none of the blocks `F` -/
structure Out (n max : Nat) (F : Nat → Prop) (a : A C) : Prop where
  inv : a.sm.Inv n max
  used : ∀ b, F b → a.sm.abs b ≠ 0
  held : ∀ b ∈ a.held, b < n ∧ ¬ F b

theorem Stp.out {n max : Nat} (hn : n < 2 ^ 64) {F : Nat → Prop} {a b : A C} (h : Stp a b) (ho : Out n max F a) :
    Out n max F b ∧ ∀ x, F x → b.mem x = a.mem x := by
  cases h with
  | @alloc sm y e =>
    obtain ⟨hi, hs⟩ := SM.Core.alloc_spec ho.inv
    rw [e] at hi hs
    simp only at hi hs
    generalize hc : sm.abs = c at hs
    cases hs with
    | alloc hb h0 =>
      have hy : ¬ F y := fun hf => ho.used y hf h0
      refine ⟨⟨hi, ?_, ?_⟩, fun _ _ => rfl⟩
      · intro x hx
        show sm.abs x ≠ 0
        rw [hc]
        simp only [SM.Counts.upd]
        split
        · simp
        · exact ho.used x hx
      · intro x hx
        rcases List.mem_append.mp hx with hx | hx
        · exact ho.held x hx
        · rw [List.mem_singleton.mp hx]; exact ⟨hb, hy⟩
  | @put y c hy =>
    refine ⟨⟨ho.inv, ho.used, ho.held⟩, ?_⟩
    intro x hx
    simp only [A.put]
    rw [if_neg]
    rintro rfl
    exact (ho.held x hy).2 hx
  | @inc y sm hy e =>
    obtain ⟨hyn, hyf⟩ := ho.held y hy
    obtain ⟨hi, hs⟩ := SM.Core.inc_spec ho.inv y 1 (by omega)
    rw [e] at hi hs
    simp only at hi hs
    refine ⟨⟨hi, ?_, ho.held⟩, fun _ _ => rfl⟩
    intro x hx
    show sm.abs x ≠ 0
    have hu := ho.used x hx
    generalize sm.abs = c at hs
    cases hs with
    | inc _ _ =>
      simp only [SM.Counts.incd]
      split <;> omega
  | @dec y sm d hy e =>
    obtain ⟨hyn, hyf⟩ := ho.held y hy
    obtain ⟨hi, hs⟩ := SM.Core.dec_spec ho.inv y
    rw [e] at hi hs
    simp only at hi hs
    refine ⟨⟨hi, ?_, ho.held⟩, fun _ _ => rfl⟩
    intro x hx
    show sm.abs x ≠ 0
    have hu := ho.used x hx
    generalize sm.abs = c at hs
    cases hs with
    | dec _ _ =>
      simp only [SM.Counts.upd]
      rw [if_neg (by rintro rfl; exact hyf hx)]
      exact hu

theorem Tr.out {n max : Nat} (hn : n < 2 ^ 64) {F : Nat → Prop} {a b : A C} (h : Tr a b) (ho : Out n max F a) :
    Out n max F b ∧ ∀ x, F x → b.mem x = a.mem x := by
  induction h with
  | refl => exact ⟨ho, fun _ _ => rfl⟩
  | snoc _ s ih =>
    obtain ⟨h1, h2⟩ := ih
    obtain ⟨h3, h4⟩ := s.out hn h1
    exact ⟨h3, fun x hx => (h4 x hx).trans (h2 x hx)⟩

/-- more blocks in hand change nothing -/
def A.plus (H : List Nat) (a : A C) : A C := { a with held := H ++ a.held }

theorem Stp.plus (H : List Nat) {a b : A C} (h : Stp a b) : Stp (a.plus H) (b.plus H) := by
  cases h with
  | @alloc sm y e =>
    have := Stp.alloc (a := a.plus H) e
    rw [show (a.plus H).held ++ [y] = H ++ (a.held ++ [y]) from List.append_assoc _ _ _] at this
    exact this
  | put c hy => exact Stp.put (a := a.plus H) c (List.mem_append_right _ hy)
  | inc hy e => exact Stp.inc (a := a.plus H) (List.mem_append_right _ hy) e
  | dec hy e => exact Stp.dec (a := a.plus H) (List.mem_append_right _ hy) e

theorem Tr.plus (H : List Nat) {a b : A C} (h : Tr a b) : Tr (a.plus H) (b.plus H) := by
  induction h with
  | refl => exact .refl _
  | snoc _ s ih => exact ih.snoc (s.plus H)

end

/-! ## The trees -/

/-- nodes of the mapping and device trees -/
def view1 : View Cell Rst.Val where
  node := .node
  rel := fun _ c m => ∀ n, m = some n → c = some (.node n)
  new := fun _ _ _ h => by cases h; rfl

variable {N : Type} [DecidableEq N]

open Verif.Rst (R Ev defBlocks)

/-- between two events -/
def HistO (a0 : A Cell) (r : R N) : Prop :=
  Own view1 a0 (defBlocks r) (match r.cur with | some (_, nb) => nb.nodes | none => []) r.st ∧ r.sec ≠ .none

theorem pushRun_own {a0 : A Cell} {U : List Nat} {nrData : Nat} (q : Dump.Run) : ∀ (k i : Nat) (nb : NB Rst.Val) (s : St Rst.Val), Own view1 a0 U nb.nodes s →
    IfOk (Rst.pushRun nrData q k i nb s) (OwnB view1 a0 U) := by
  intro k
  induction k with
  | zero => intro i nb s h; exact .ok h
  | succ k ih => intro i nb s h; exact (pushValue_own h).bind fun a ha => ih (i + 1) a.1 a.2 ha

omit [DecidableEq N] in
theorem endSection_own {a0 : A Cell} {r : R N} (h : HistO a0 r) : IfOk (Rst.endSection r) (fun x => Own view1 a0 (defBlocks x.2.2) x.2.1 x.2.2.st ∧ x.2.2.cur = none) := by
  unfold Rst.endSection
  obtain ⟨h, -⟩ := h
  split
  · exact .err
  · rename_i m nb e
    rw [e] at h
    refine (Rst.IfOk.lift (complete_own h)).bind fun a ha => .ok ⟨ha, rfl⟩

theorem step_own {a0 : A Cell} {r : R N} (h : HistO a0 r) (e : Ev N) : IfOk (Rst.step e r) (HistO a0) := by
  cases e with
  | sbB sb =>
    simp only [Rst.step]
    exact .ite (fun _ => .err) fun hc => absurd h.2 hc
  | sbE =>
    simp only [Rst.step]
    unfold Rst.finalize
    split
    · exact .err
    · refine IfOk.bind (Q := fun b : Nat × Nat × R N => Own view1 a0 (defBlocks b.2.2 ++ (match b.2.2.cur with | some (_, nb) => nb.nodes | none => []).map (fun m : Summary => m.block)) [] b.2.2.st) ?_ fun b hb => ?_
      · unfold Rst.buildDetails
        refine (Rst.IfOk.lift (buildVals_own (fun i hi => by obtain ⟨p, -, rfl⟩ := List.mem_map.mp hi; exact ⟨_, _, rfl⟩) h.1.toU)).bind fun a ha => ?_
        refine (Rst.IfOk.lift (buildVals_own (fun i hi => by obtain ⟨p, -, rfl⟩ := List.mem_map.mp hi; exact ⟨_, _, rfl⟩) ha)).bind fun b hb => .ok hb
      · refine (Rst.IfOk.lift (releaseLeaves_own _ _ ?_ hb)).bind fun s hs => .ok ⟨hs.ofU, by simp⟩
        intro m hm
        obtain ⟨p, hp, hm⟩ := List.mem_flatMap.mp hm
        exact List.mem_append_left _ (List.mem_flatMap.mpr ⟨p, hp, List.mem_map.mpr ⟨m, hm, rfl⟩⟩)
  | defB name =>
    simp only [Rst.step]
    refine .ite (fun _ => .err) fun _ => ?_
    unfold Rst.beginSection
    split
    · exact .err
    · exact .ok ⟨h.1.nil, by simp⟩
  | defE =>
    simp only [Rst.step]
    refine (endSection_own h).bind fun x hx => ?_
    split
    · refine .ok ⟨?_, by simp⟩
      obtain ⟨⟨a, tr, e1, m, u, v⟩, hc⟩ := hx
      refine ⟨a, tr, e1, m, ?_, ?_⟩
      · intro b hb
        obtain ⟨p, hp, hb⟩ := List.mem_flatMap.mp hb
        obtain ⟨m, hm, rfl⟩ := List.mem_map.mp hb
        rcases Rst.insertName_mem hp with rfl | hp
        · exact v m hm
        · exact u _ (List.mem_flatMap.mpr ⟨p, hp, List.mem_map.mpr ⟨m, hm, rfl⟩⟩)
      · simp only [hc]
        intro m hm
        cases hm
    · exact .err
  | devB d =>
    simp only [Rst.step]
    refine .ite (fun _ => .err) fun _ => ?_
    unfold Rst.beginSection
    split
    · exact .err
    · exact .ok ⟨h.1.nil, by simp⟩
  | devE =>
    simp only [Rst.step]
    split
    · exact .err
    · refine (endSection_own (r := { r with dev := none }) h).bind fun x hx => ?_
      split
      · exact .err
      · refine (Rst.IfOk.lift (buildTree_own hx.1)).bind fun t ht => .ok ⟨?_, by simp⟩
        simp only [hx.2]
        exact ht
  | map q =>
    simp only [Rst.step]
    obtain ⟨h, hs⟩ := h
    split
    · exact .err
    · rename_i m nb e
      rw [e] at h
      exact (Rst.IfOk.lift (pushRun_own q _ _ _ _ h)).bind fun a ha => .ok ⟨ha, hs⟩
  | ref name =>
    simp only [Rst.step]
    split
    · exact .err
    · split
      · exact .err
      · rename_i leaves hl
        obtain ⟨h, hs⟩ := h
        split
        · exact .err
        · rename_i m nb e
          rw [e] at h
          split
          · exact .err
          · rename_i q qs
            refine (Rst.IfOk.lift (pushNodes_own (U := defBlocks r) ?_ h)).bind fun a ha => .ok ⟨ha, hs⟩
            intro x hx
            unfold Rst.lookupName at hl
            obtain ⟨p, hp, hq⟩ := Option.map_eq_some_iff.mp hl
            exact List.mem_flatMap.mpr ⟨p, List.mem_of_find?_eq_some hp, by rw [hq]; exact List.mem_map.mpr ⟨x, hx, rfl⟩⟩
  | eof =>
    simp only [Rst.step]
    exact .ite (fun _ => .err) fun _ => .ok h

theorem run_own {a0 : A Cell} : ∀ (evs : List (Ev N)) (r : R N), HistO a0 r → IfOk (Rst.run evs r) (HistO a0) := by
  intro evs
  induction evs with
  | nil => intro r h; exact .ok h
  | cons e evs ih => intro r h; exact (step_own h e).bind fun a ha => ih a ha

/-- the state after block 0 was taken -/
def begun (max n : Nat) : A Cell := ⟨(SM.Core.new max n).alloc.1, [], fun _ => none⟩

/-- a restore begins by taking block 0, and goes on with steps that leave it alone -/
theorem first_own {max n : Nat} (hn0 : 0 < n) (evs : List (Ev N)) : IfOk (Rst.run evs (R.new N ⟨fun _ => none, SM.Core.new max n, [], []⟩))
    (fun r => r.out = none ∨ Own view1 (begun max n) [] [] r.st) := by
  cases evs with
  | nil => exact .ok (Or.inl rfl)
  | cons e evs =>
    refine IfOk.bind (x := Rst.step e _) (Q := HistO (begun max n)) ?_ fun r hr => (run_own evs r hr).mono fun r h => Or.inr (h.1.nil.weak (by simp))
    cases e with
    | sbB sb =>
      simp only [Rst.step, R.new]
      refine .ite (fun _ => .err) fun _ => .ite (fun _ => .err) fun _ => ?_
      obtain ⟨sm, hs, -⟩ := RIo.reserve_some (D := Unit) ⟨0, fun _ => ()⟩ 0 n max hn0
      refine (Rst.IfOk.lift (Q := fun a => a.2.sm = (SM.Core.new max n).alloc.1 ∧ a.2.mem = fun _ => none) ?_).bind fun a ha => .ite (fun _ => .err) fun _ => .ok ⟨?_, by simp⟩
      · intro a ha
        unfold Bld.alloc at ha
        simp only [hs] at ha ⊢
        cases ha
        exact ⟨rfl, rfl⟩
      · refine ⟨begun max n, .refl _, ha.1.symm, ?_, fun b hb => by simp [defBlocks] at hb, fun m hm => by cases hm⟩
        intro b
        show ∀ n, a.2.mem b = some n → _
        rw [ha.2]
        intro n hn
        cases hn
    | sbE => exact .err
    | defB name => exact .err
    | defE => exact .err
    | devB d => exact .err
    | devE => exact .err
    | map q => exact .err
    | ref name => exact .err
    | eof => exact .err

/-! ## The space maps -/

/-- nodes of the space maps, and bitmaps; all other blocks are as before (`base`) -/
def view2 (base : Nat → Option Cell) (bm : Nat → Option (List BE)) : View Cell SVal where
  node := .smNode
  rel := fun b c m => (∀ n, m = some n → c = some (.smNode n)) ∧ (m = none → (∀ es, bm b = some es → c = some (.bitmap es)) ∧ (bm b = none → c = base b))
  new := fun _ _ => ⟨fun _ h => by cases h; rfl, fun h => by cases h⟩

/-- the device of the space map writers -/
def OwnS (a0 : A Cell) (U : List Nat) (ns : List Summary) (s : SSt) : Prop := Own (view2 a0.mem s.bm) a0 U ns s.bt

theorem putBitmap_own {a0 : A Cell} {U : List Nat} {ns : List Summary} {epb b : Nat} {es : List BE} {s : SSt} (hb : b ∈ U) (h : OwnS a0 U ns s) :
    OwnS a0 U ns (SMD.putBitmap epb b es s) := by
  obtain ⟨a, tr, e1, m, u, v⟩ := h
  refine ⟨_, tr.snoc (.put (.bitmap (es ++ List.replicate (epb - es.length) (.small 0))) (u b hb)), e1, ?_, u, v⟩
  intro x
  simp only [A.put, SMD.putBitmap, view2]
  by_cases hx : x = b
  · rw [if_pos hx, if_pos hx, if_pos hx]
    exact ⟨fun n h => (by cases h), fun _ => ⟨fun es h => (by cases h; rfl), fun h => (by cases h)⟩⟩
  · rw [if_neg hx, if_neg hx, if_neg hx]
    exact m x

theorem writeBitmap_own {a0 : A Cell} {U : List Nat} {ns : List Summary} {epb : Nat} {es : List BE} {s : SSt} (h : OwnS a0 U ns s) :
    IfOk (SMD.writeBitmap epb es s) (fun r => OwnS a0 (U ++ [r.1]) ns r.2) := by
  refine IfOk.bind (x := Bld.alloc s.bt) (Q := fun r => OwnS a0 (U ++ [r.1]) ns { s with bt := r.2 }) (fun r e => Own.alloc h e) ?_
  intro r hr
  exact .ok (putBitmap_own (by simp) hr)

theorem rowLoop_own {bm : Nat → Option (List BE)} {a0 : A Cell} {U : List Nat} (begin : Nat) : ∀ (cs : List Nat) (i : Nat) (row : Row) (s : St SVal), Own (view2 a0.mem bm) a0 U row.nb.nodes s →
    IfOk (SMD.rowLoop begin cs i row s) (fun a => Own (view2 a0.mem bm) a0 U a.1.nb.nodes a.2) := by
  intro cs
  induction cs with
  | nil => intro i row s h; exact .ok h
  | cons c cs ih =>
    intro i row s h
    match c with
    | 0 => exact ih _ _ _ h
    | 1 => exact ih _ _ _ h
    | 2 => exact ih _ _ _ h
    | c + 3 => exact IfOk.bind (x := Bld.pushValue SMD.io (begin + i) (.rc (c + 3)) row.nb s) (pushValue_own h) fun a ha => ih _ _ _ ha

theorem bitmapLoop_own {a0 : A Cell} {U : List Nat} (epb : Nat) (cs : List Nat) : ∀ (n bm : Nat) (ies : List IndexEntry) (nb : NB SVal) (s : SSt), OwnS a0 U nb.nodes s →
    IfOk (SMD.bitmapLoop epb cs n bm ies nb s) (fun a => OwnS a0 U a.2.1.nodes a.2.2) := by
  intro n
  induction n with
  | zero => intro bm ies nb s h; exact .ok h
  | succ n ih =>
    intro bm ies nb s h
    refine IfOk.bind (x := SMD.rowLoop (bm * epb) _ 0 ⟨[], none, epb, nb⟩ s.bt) (rowLoop_own _ _ _ ⟨[], none, epb, nb⟩ _ h) ?_
    intro r hr
    refine IfOk.bind (x := SMD.writeBitmap epb r.1.entries { s with bt := r.2 }) (writeBitmap_own hr) ?_
    intro w hw
    exact ih _ _ _ _ (Own.weak hw fun b hb => by simp [hb])

theorem completeTree_own {bm : Nat → Option (List BE)} {a0 : A Cell} {U : List Nat} {capI : Nat} {nb : NB SVal} {s : St SVal} (h : Own (view2 a0.mem bm) a0 U nb.nodes s) :
    IfOk (SMD.completeTree capI nb s) (fun t => Own (view2 a0.mem bm) a0 U [] t.2) :=
  IfOk.bind (x := Bld.complete SMD.io nb s) (complete_own h) fun _ ha => buildTree_own ha

theorem writeDiskSm_own {a0 : A Cell} {epb nrAlloc : Nat} {cs : List Nat} {s : SSt} (h : OwnS a0 [] [] s) :
    IfOk (SMD.writeDiskSm epb cs nrAlloc s) (fun a => OwnS a0 [] [] a.2) := by
  refine IfOk.bind (x := SMD.writeCommon epb cs s) (Q := fun c => OwnS a0 [] [] c.2.2) ?_ ?_
  · refine IfOk.bind (x := SMD.bitmapLoop epb cs _ 0 [] (NB.new SMD.capOv false) s) (bitmapLoop_own _ _ _ _ _ _ _ h) ?_
    intro r hr
    exact IfOk.bind (x := SMD.completeTree SMD.capI r.2.1 r.2.2.bt) (completeTree_own hr) fun t ht => .ok ht
  · intro c hc
    refine IfOk.bind (x := Bld.build SMD.io SMD.capIx SMD.capI (SMD.indexItems c.1) c.2.2.bt) (buildVals_own ?_ hc) fun x hx => .ok hx
    intro i hi
    obtain ⟨e, -, rfl⟩ := List.mem_map.mp hi
    exact ⟨_, _, rfl⟩

/-- blocks of bitmaps -/
def ieBlocks (ies : List IndexEntry) : List Nat := ies.map (·.blocknr)

theorem rowOut_own {a0 : A Cell} {epb : Nat} {row : MRow} {s : SSt} (h : OwnS a0 (ieBlocks row.ies) row.nb.nodes s) :
    IfOk (row.out epb s) (fun o => OwnS a0 (ieBlocks o.1) row.nb.nodes o.2) :=
  IfOk.bind (x := SMD.writeBitmap epb row.entries s) (writeBitmap_own h) fun w hw => .ok (Own.weak hw fun b hb => by simpa [ieBlocks] using hb)

theorem metaBlock_own {a0 : A Cell} {epb b : Nat} {row : MRow} {s : SSt} (h : OwnS a0 (ieBlocks row.ies) row.nb.nodes s) :
    IfOk (SMD.metaBlock epb b row s) (fun x => OwnS a0 (ieBlocks x.1.ies) x.1.nb.nodes x.2) := by
  unfold SMD.metaBlock
  refine IfOk.bind (Q := fun x : MRow × SSt => OwnS a0 (ieBlocks x.1.ies) x.1.nb.nodes x.2) ?_ ?_
  · exact .ite (fun _ => (rowOut_own h).bind fun o ho => .ok ho) fun _ => .ok h
  · intro x hx
    split
    · exact .err
    · exact .ok hx
    · exact .ok hx
    · exact .ok hx
    · exact IfOk.bind (x := Bld.pushValue SMD.io _ _ x.1.nb x.2.bt) (pushValue_own hx) fun r hr => .ok hr

theorem metaLoop_own {a0 : A Cell} {epb : Nat} : ∀ (bs : List Nat) (row : MRow) (s : SSt), OwnS a0 (ieBlocks row.ies) row.nb.nodes s →
    IfOk (SMD.metaLoop epb bs row s) (fun x => OwnS a0 (ieBlocks x.1.ies) x.1.nb.nodes x.2) := by
  intro bs
  induction bs with
  | nil => intro row s h; exact .ok h
  | cons b bs ih => intro row s h; exact (metaBlock_own h).bind fun x hx => ih _ _ hx

theorem fillLoop_own {a0 : A Cell} {epb : Nat} {ns : List Summary} : ∀ (n : Nat) (ies : List IndexEntry) (s : SSt), OwnS a0 (ieBlocks ies) ns s →
    IfOk (SMD.fillLoop epb n ies s) (fun x => OwnS a0 (ieBlocks x.1) ns x.2) := by
  intro n
  induction n with
  | zero => intro ies s h; exact .ok h
  | succ n ih =>
    intro ies s h
    refine IfOk.bind (x := SMD.writeBitmap epb _ s) (writeBitmap_own h) fun w hw => ih _ _ (Own.weak hw fun b hb => by simpa [ieBlocks] using hb)

theorem writeMetadataCommon_own {a0 : A Cell} {epb : Nat} {s : SSt} (h : OwnS a0 [] [] s) :
    IfOk (SMD.writeMetadataCommon epb s) (fun x => OwnS a0 (ieBlocks x.1) [] x.2.2) := by
  refine IfOk.bind (x := SMD.metaLoop epb _ (MRow.fresh epb 0 [] (NB.new SMD.capOv false)) _) (metaLoop_own _ _ _ (Own.frame h rfl rfl)) ?_
  intro r hr
  refine IfOk.bind (x := r.1.out epb r.2) (rowOut_own hr) ?_
  intro o ho
  refine IfOk.bind (x := SMD.fillLoop epb _ o.1 o.2) (fillLoop_own _ _ _ ho) ?_
  intro f hf
  exact IfOk.bind (x := SMD.completeTree SMD.capI r.1.nb f.2.bt) (completeTree_own hf) fun t ht => .ok ht

theorem adjustCounts_own {a0 : A Cell} {U : List Nat} {epb : Nat} {ie : IndexEntry} {b e : Nat} {s : SSt} (hb : ie.blocknr ∈ U) (h : OwnS a0 U [] s) :
    IfOk (SMD.adjustCounts epb ie b e s) (fun x => x.1.blocknr = ie.blocknr ∧ OwnS a0 U [] x.2) := by
  unfold SMD.adjustCounts
  split
  · exact .err
  · exact .ok ⟨rfl, putBitmap_own hb h⟩

theorem adjustRange_own {a0 : A Cell} {U : List Nat} {epb : Nat} {q : Nat × Nat} : ∀ (ies : List IndexEntry) (bm : Nat) (s : SSt), (∀ b ∈ ieBlocks ies, b ∈ U) → OwnS a0 U [] s →
    IfOk (SMD.adjustRange epb q bm ies s) (fun x => ieBlocks x.1 = ieBlocks ies ∧ OwnS a0 U [] x.2) := by
  intro ies
  induction ies with
  | nil => intro bm s _ h; exact .ok ⟨rfl, h⟩
  | cons ie ies ih =>
    intro bm s hb h
    refine IfOk.bind (Q := fun x : IndexEntry × SSt => x.1.blocknr = ie.blocknr ∧ OwnS a0 U [] x.2) ?_ ?_
    · exact .ite (fun _ => adjustCounts_own (hb _ (by simp [ieBlocks])) h) fun _ => .ok ⟨rfl, h⟩
    · intro x hx
      refine (ih (bm + 1) x.2 (fun b hb' => hb b (by simp only [ieBlocks, List.map_cons, List.mem_cons] at hb' ⊢; exact Or.inr hb')) hx.2).bind fun y hy => .ok ⟨?_, hy.2⟩
      have := hy.1
      simp only [ieBlocks, List.map_cons] at this ⊢
      rw [hx.1, this]

theorem adjustAll_own {a0 : A Cell} {U : List Nat} {epb : Nat} : ∀ (qs : List (Nat × Nat)) (ies : List IndexEntry) (s : SSt), (∀ b ∈ ieBlocks ies, b ∈ U) → OwnS a0 U [] s →
    IfOk (SMD.adjustAll epb qs ies s) (fun x => OwnS a0 U [] x.2) := by
  intro qs
  induction qs with
  | nil => intro ies s _ h; exact .ok h
  | cons q qs ih =>
    intro ies s hb h
    exact (adjustRange_own ies 0 s hb h).bind fun x hx => ih _ _ (by rw [hx.1]; exact hb) hx.2

theorem writeMetadataSm_own {a0 : A Cell} {epb : Nat} {s : SSt} (h : OwnS a0 [] [] s) :
    IfOk (SMD.writeMetadataSm epb s) (fun x => OwnS a0 [x.1.bitmap_root] [] x.2.2) := by
  refine (writeMetadataCommon_own h).bind fun c hc => ?_
  refine IfOk.bind (x := Bld.alloc c.2.2.bt) (Q := fun r => OwnS a0 (ieBlocks c.1 ++ [r.1]) [] { c.2.2 with bt := r.2 }) (fun r e => Own.alloc hc e) ?_
  intro r hr
  refine IfOk.bind (x := SMD.adjustAll epb _ c.1 _) (adjustAll_own (U := ieBlocks c.1 ++ [r.1]) _ _ _ (fun b hb => by simp [hb]) (Own.frame hr rfl rfl)) ?_
  intro x hx
  refine .ite (fun _ => .ok ?_) fun _ => .err
  exact Own.weak hx fun b hb => by simp at hb; simp [hb]

/-! ## The whole restore -/

theorem begun_out {n max : Nat} (hn0 : 0 < n) (hm : 1 ≤ max) : Out n max (fun b => b = 0) (begun max n) := by
  have h := RIo.ready_safe (D := Unit) ⟨0, fun _ => ()⟩ 0 n max hn0 hm
  obtain ⟨sm, hs, hr⟩ := RIo.reserve_some (D := Unit) ⟨0, fun _ => ()⟩ 0 n max hn0
  have e : (RIo.ready (D := Unit) ⟨0, fun _ => ()⟩ 0 n max).sm = (begun max n).sm := by
    unfold RIo.ready begun
    rw [hr, hs]
    rfl
  exact ⟨e ▸ h.inv, fun b hb => by subst hb; exact e ▸ h.zero, fun b hb => by cases hb⟩

/-- the memory `m` of the device holds the image, and nothing of it is in block 0 -/
structure InMem (img : Rst.Image) (m : Nat → Option Cell) : Prop where
  zero : m 0 = none
  nodes : ∀ b x, img.nodes b = some x → m b = some (.node x)
  smNodes : ∀ b x, img.smNodes b = some x → m b = some (.smNode x)
  bitmaps : ∀ b x, img.bitmaps b = some x → m b = some (.bitmap x)
  index : ∀ b x, img.index b = some x → m b = some (.index x)

/-- the steps of a restore lead to its image -/
theorem image_trace {epb n max : Nat} (hn0 : 0 < n) (hn : n < 2 ^ 64) (hm : 1 ≤ max) {evs : List (Ev N)} {img : Rst.Image}
    (h : Rst.restoreAll epb evs ⟨fun _ => none, SM.Core.new max n, [], []⟩ = .ok img) :
    ∃ a, Tr (begun max n) a ∧ InMem img a.mem := by
  have key : IfOk (Rst.restoreAll epb evs ⟨fun _ => none, SM.Core.new max n, [], []⟩) (fun img => ∃ a, Tr (begun max n) a ∧ InMem img a.mem) := by
    unfold Rst.restoreAll
    refine (first_own hn0 evs).bind fun r hr => ?_
    split
    · exact .err
    · rename_i out hout
      rcases hr with hr | hr
      · rw [hr] at hout; cases hout
      · obtain ⟨a1, tr1, e1, m1, -, -⟩ := hr
        obtain ⟨o1, z1⟩ := tr1.out hn (begun_out hn0 hm)
        have h0 : OwnS { a1 with held := [] } [] [] (Rst.smStart r.st) :=
          ⟨_, .refl _, e1, fun b => ⟨fun n h => (by cases h), fun _ => ⟨fun es h => (by cases h), fun _ => rfl⟩⟩, fun b hb => (by cases hb), fun b hb => (by cases hb)⟩
        unfold Rst.writeSms
        refine (Rst.IfOk.lift (writeDiskSm_own h0)).bind fun d hd => ?_
        refine (Rst.IfOk.lift (writeMetadataSm_own hd)).bind fun x hx => ?_
        obtain ⟨a3, tr3, e3, m3, u3, -⟩ := hx
        have hix := u3 x.1.bitmap_root (by simp)
        have tr4 := tr3.snoc (.put (.index x.2.1) hix)
        have out0 : Out n max (fun b => r.st.sm.abs b ≠ 0) { a1 with held := [] } :=
          ⟨o1.inv, fun b hb => (by show a1.sm.abs b ≠ 0; rw [e1]; exact hb), fun b hb => (by cases hb)⟩
        obtain ⟨o3, -⟩ := tr3.out hn out0
        obtain ⟨o4, f4⟩ := tr4.out hn out0
        have used0 : r.st.sm.abs 0 ≠ 0 := by rw [← e1]; exact o1.used 0 rfl
        have tr5 := tr4.plus a1.held
        have e5 : A.plus a1.held { a1 with held := [] } = a1 := by
          unfold A.plus
          simp
        rw [e5] at tr5
        split
        · rename_i db mb _ _
          refine .ok ⟨_, tr1.trans tr5, ?_⟩
          refine ⟨?_, ?_, ?_, ?_, ?_⟩
          · exact (f4 0 used0).trans (z1 0 rfl)
          · intro b y hy
            simp only [Rst.imageOf] at hy
            split at hy
            · rename_i hc
              exact (f4 b (Nat.pos_iff_ne_zero.mp hc.1)).trans (m1 b y hy)
            · cases hy
          · intro b y hy
            simp only [Rst.imageOf] at hy
            split at hy
            · cases hy
            · rename_i hc
              simp only [A.plus, A.put]
              rw [if_neg fun e => hc (Or.inr e)]
              exact (m3 b).1 y hy
          · intro b y hy
            simp only [Rst.imageOf] at hy
            split at hy
            · cases hy
            · rename_i hc
              simp only [A.plus, A.put]
              rw [if_neg fun e => hc (Or.inr e)]
              unfold SMD.SSt.readBm at hy
              split at hy
              · rename_i hmm
                exact ((m3 b).2 hmm).1 y hy
              · cases hy
          · intro b y hy
            simp only [Rst.imageOf] at hy
            split at hy
            · rename_i hc
              cases hy
              simp only [A.plus, A.put]
              rw [if_pos hc]
            · cases hy
        · exact .err
  exact key img h

/-! ## From steps to calls of the batcher -/

open Verif.RIo (Op ready calls restore Crash)
open Verif.Batch (Resp applyAll)

section
variable {D K C : Type} {stamp : K → D → Option D}

theorem calls_append_ok (os ps : List (Op D K)) : ∀ s : RIo.St D, (s.run stamp os).2 = true →
    calls stamp s (os ++ ps) = calls stamp s os ++ calls stamp (s.run stamp os).1 ps := by
  induction os with
  | nil => intro s _; rfl
  | cons o os ih =>
    intro s h
    simp only [RIo.St.run] at h ⊢
    by_cases hk : (s.step stamp o).2 = true
    · rw [if_pos hk] at h ⊢
      have := ih _ h
      simp only [List.cons_append, calls, hk, if_true, this]
      cases o <;> simp
    · rw [if_neg hk] at h; simp at h

theorem write_good (bt : Batch.Batcher D) (l : Nat) (x : D) (k : K) {y : D} (hy : stamp k x = some y) : (bt.write stamp l x k Resp.good).2 = true := by
  unfold Batch.Batcher.write
  rw [hy]
  simp only
  split
  · rfl
  · split <;> rfl

/-- every step is a call, on any device and with any batch size -/
theorem tr_calls {n max : Nat} (hn0 : 0 < n) (hn : n < 2 ^ 64) (hm : 1 ≤ max) (code : Cell → D × K) (fin : Cell → D)
    (hst : ∀ c, stamp (code c).2 (code c).1 = some (fin c)) {a : A Cell} (h : Tr (begun max n) a) :
    ∃ body : List (Op D K), (∀ o ∈ body, o.Good) ∧ ∀ (d : Batch.Disk D) (bs : Nat), n ≤ d.nr →
      ((ready d bs n max).run stamp body).2 = true ∧ ((ready d bs n max).run stamp body).1.sm = a.sm ∧ ((ready d bs n max).run stamp body).1.held = a.held ∧
      ∀ b c, a.mem b = some c → applyAll stamp d.nr d.data (calls stamp (ready d bs n max) body) b = fin c := by
  induction h with
  | refl =>
    refine ⟨[], fun o ho => (by cases ho), fun d bs hd => ?_⟩
    obtain ⟨sm, hs, hr⟩ := RIo.reserve_some d bs n max hn0
    have e : ready d bs n max = { bt := Batch.Batcher.new d bs, sm := sm, held := [] } := by unfold ready; rw [hr]; rfl
    rw [e]
    refine ⟨rfl, ?_, rfl, fun b c hc => (by cases hc)⟩
    show sm = (SM.Core.new max n).alloc.1
    rw [hs]
  | @snoc b c tr st ih =>
    obtain ⟨body, hg, hrun⟩ := ih
    -- one more call
    have more : ∀ o : Op D K, o.Good → (∀ (d : Batch.Disk D) (bs : Nat), n ≤ d.nr → ∀ s : RIo.St D, s = ((ready d bs n max).run stamp body).1 → s.sm = b.sm → s.held = b.held →
        (s.step stamp o).2 = true ∧ (s.step stamp o).1.sm = c.sm ∧ (s.step stamp o).1.held = c.held ∧
        ∀ M : Nat → D, (∀ x y, b.mem x = some y → M x = fin y) → ∀ x y, c.mem x = some y → applyAll stamp d.nr M (calls stamp s [o]) x = fin y) →
        ∃ body : List (Op D K), (∀ o ∈ body, o.Good) ∧ ∀ (d : Batch.Disk D) (bs : Nat), n ≤ d.nr →
          ((ready d bs n max).run stamp body).2 = true ∧ ((ready d bs n max).run stamp body).1.sm = c.sm ∧ ((ready d bs n max).run stamp body).1.held = c.held ∧
          ∀ b' y, c.mem b' = some y → applyAll stamp d.nr d.data (calls stamp (ready d bs n max) body) b' = fin y := by
      intro o ho hstep
      refine ⟨body ++ [o], ?_, ?_⟩
      · intro x hx
        rcases List.mem_append.mp hx with hx | hx
        · exact hg x hx
        · rw [List.mem_singleton.mp hx]; exact ho
      · intro d bs hd
        obtain ⟨r1, r2, r3, r4⟩ := hrun d bs hd
        obtain ⟨s1, s2, s3, s4⟩ := hstep d bs hd _ rfl r2 r3
        rw [RIo.run_append_ok stamp body [o] _ r1, calls_append_ok body [o] _ r1]
        have e : (((ready d bs n max).run stamp body).1.run stamp [o]) = ((((ready d bs n max).run stamp body).1.step stamp o).1, true) := by
          simp only [RIo.St.run]
          rw [if_pos s1]
        rw [e]
        refine ⟨rfl, s2, s3, ?_⟩
        have := s4 _ r4
        unfold applyAll at this ⊢
        rw [List.foldl_append]
        exact this
    cases st with
    | @alloc sm y e =>
      refine more .alloc trivial ?_
      intro d bs hd s hs h1 h2
      have e' : s.alloc = ({ s with sm := sm, held := s.held ++ [y] }, some y) := by
        unfold RIo.St.alloc
        rw [h1, e]
      simp only [RIo.St.step, e', h2]
      refine ⟨rfl, trivial, trivial, ?_⟩
      intro M hM x z hz
      simpa [calls, applyAll] using hM x z hz
    | @put y cell hy =>
      obtain ⟨i, hi⟩ := List.mem_iff_getElem?.mp hy
      refine more (.write i (code cell).1 (code cell).2 Resp.good) rfl ?_
      intro d bs hd s hs h1 h2
      have hi' : s.held[i]? = some y := by rw [h2]; exact hi
      have hsafe := RIo.run_safe stamp hn body (RIo.ready_safe d bs n max hn0 hm)
      have hyn : y < d.nr := by
        have := (hsafe.held y (by rw [← hs, h2]; exact hy)).2
        omega
      have hw := write_good s.bt y (code cell).1 (code cell).2 (hst cell)
      have hstep : s.step stamp (.write i (code cell).1 (code cell).2 Resp.good) =
          ({ s with bt := (s.bt.write stamp y (code cell).1 (code cell).2 Resp.good).1 }, true) := by
        simp only [RIo.St.step, hi']
        rw [hw]
      rw [hstep]
      refine ⟨rfl, h1, h2, ?_⟩
      intro M hM x z hz
      have hcalls : calls stamp s [.write i (code cell).1 (code cell).2 Resp.good] = [.write y (code cell).1 (code cell).2 Resp.good] := by
        simp only [calls, hi', hstep]
        rfl
      rw [hcalls]
      simp only [applyAll, List.foldl_cons, List.foldl_nil, Batch.apply, hst]
      simp only [A.put] at hz
      by_cases hxy : x = y
      · rw [if_pos hxy] at hz
        cases hz
        rw [if_pos ⟨hxy, hyn⟩]
      · rw [if_neg hxy] at hz
        rw [if_neg fun h => hxy h.1]
        exact hM x z hz
    | @inc y sm hy e =>
      obtain ⟨i, hi⟩ := List.mem_iff_getElem?.mp hy
      refine more (.inc i) trivial ?_
      intro d bs hd s hs h1 h2
      have hi' : s.held[i]? = some y := by rw [h2]; exact hi
      have hstep : s.step stamp (.inc i) = ({ s with sm := sm }, true) := by
        simp only [RIo.St.step, hi', h1, e]
        rfl
      rw [hstep]
      refine ⟨rfl, rfl, h2, ?_⟩
      intro M hM x z hz
      simpa [calls, applyAll] using hM x z hz
    | @dec y sm q hy e =>
      obtain ⟨i, hi⟩ := List.mem_iff_getElem?.mp hy
      refine more (.dec i) trivial ?_
      intro d bs hd s hs h1 h2
      have hi' : s.held[i]? = some y := by rw [h2]; exact hi
      have hstep : s.step stamp (.dec i) = ({ s with sm := sm }, true) := by
        simp only [RIo.St.step, hi', h1, e]
        rfl
      rw [hstep]
      refine ⟨rfl, rfl, h2, ?_⟩
      intro M hM x z hz
      simpa [calls, applyAll] using hM x z hz

/-! ## C82: what a restore leaves on the device -/

/-- the device holds the restored metadata: the superblock in block 0, and every node, space map node, bitmap and index
block of the image in its place, as stored (`fin`, i.e. checksummed and stamped with its location) -/
structure Holds (fin : Cell → D) (enc : Thin.Superblock → D) (img : Rst.Image) (dk : Batch.Disk D) : Prop where
  sb : dk.data 0 = enc img.sb
  nodes : ∀ b x, img.nodes b = some x → dk.data b = fin (.node x)
  smNodes : ∀ b x, img.smNodes b = some x → dk.data b = fin (.smNode x)
  bitmaps : ∀ b x, img.bitmaps b = some x → dk.data b = fin (.bitmap x)
  index : ∀ b x, img.index b = some x → dk.data b = fin (.index x)

theorem InMem.holds {img : Rst.Image} {m : Nat → Option Cell} (hm : InMem img m) {fin : Cell → D} {enc : Thin.Superblock → D} {dk : Batch.Disk D} {M : Nat → D}
    (hM : ∀ b c, m b = some c → M b = fin c) (hd : ∀ l, dk.data l = if l = 0 then enc img.sb else M l) : Holds fin enc img dk := by
  have key : ∀ b c, m b = some c → dk.data b = fin c := by
    intro b c hc
    have hb : b ≠ 0 := by
      intro e
      subst e
      rw [hm.zero] at hc
      cases hc
    rw [hd b, if_neg hb]
    exact hM b c hc
  refine ⟨?_, fun b x h => key _ _ (hm.nodes b x h), fun b x h => key _ _ (hm.smNodes b x h), fun b x h => key _ _ (hm.bitmaps b x h), fun b x h => key _ _ (hm.index b x h)⟩
  rw [hd 0, if_pos rfl]

/-- a restore whose calls all succeed reports success -/
theorem restore_succeeds {n max : Nat} (hn0 : 0 < n) (d : Batch.Disk D) (bs : Nat) (body : List (Op D K)) (sb : D) (last : Resp)
    (h : ((ready d bs n max).run stamp body).2 = true) : (restore stamp d bs n max body Resp.good sb ⟨true, true⟩ last).2 = true := by
  obtain ⟨sm, h1, h2⟩ := RIo.reserve_some d bs n max hn0
  have er : ready d bs n max = { bt := Batch.Batcher.new d bs, sm := sm, held := [] } := by unfold ready; rw [h2]; rfl
  unfold restore
  rw [h2, ← er]
  simp only
  rw [if_pos h]
  have : (((ready d bs n max).run stamp body).1.step stamp (.flush Resp.good)).2 = true := by
    show (Batch.Batcher.flush _ Resp.good).2 = true
    unfold Batch.Batcher.flush
    split <;> rfl
  rw [if_pos this]

/-- C82.  Whatever document `thin_restore` accepts, the calls it makes (`body`) do not depend on the device or on the
engine's batch size, and on any device of at least `n` blocks that stores what it is given: the tool reports success and
then the device holds exactly the superblock, nodes, bitmaps and index blocks of the image it built; and wherever it is
interrupted, block 0 still is what it was before or the whole image is there. -/
theorem restore_image_on_device (code : Cell → D × K) (fin : Cell → D) (hst : ∀ c, stamp (code c).2 (code c).1 = some (fin c)) (enc : Thin.Superblock → D)
    {epb n max : Nat} (hn0 : 0 < n) (hn : n < 2 ^ 64) (hm : 1 ≤ max) {evs : List (Rst.Ev N)} {img : Rst.Image}
    (h : Rst.restoreAll epb evs ⟨fun _ => none, SM.Core.new max n, [], []⟩ = .ok img) :
    ∃ body : List (Op D K), (∀ o ∈ body, o.Good) ∧ ∀ (d : Batch.Disk D) (bs : Nat), n ≤ d.nr →
      (∀ last, (restore stamp d bs n max body Resp.good (enc img.sb) ⟨true, true⟩ last).2 = true ∧
        Holds fin enc img (restore stamp d bs n max body Resp.good (enc img.sb) ⟨true, true⟩ last).1) ∧
      ∀ dk, Crash stamp d bs n max body (enc img.sb) dk → dk.data 0 = d.data 0 ∨ Holds fin enc img dk := by
  obtain ⟨a, tr, mem⟩ := image_trace hn0 hn hm h
  obtain ⟨body, hg, hrun⟩ := tr_calls hn0 hn hm code fin hst tr
  refine ⟨body, hg, fun d bs hd => ?_⟩
  obtain ⟨r1, -, -, r4⟩ := hrun d bs hd
  refine ⟨fun last => ?_, fun dk hc => ?_⟩
  · have hok := restore_succeeds hn0 d bs body (enc img.sb) last r1
    exact ⟨hok, mem.holds r4 (RIo.restore_ok_complete stamp d bs n max hn0 hn hm hd body hg _ last hok)⟩
  · rcases RIo.restore_crash_partial stamp d bs n max hn0 hn hm hd body hg _ dk hc with hc | hc
    · exact .inl hc
    · exact .inr (mem.holds r4 hc)

end

end Verif.RTr
