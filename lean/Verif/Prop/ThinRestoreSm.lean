import Verif.Model.ThinRestoreSm
import Verif.Prop.ThinRestoreCursor
import Verif.Prop.ThinRestoreData
import Verif.Prop.SpaceMapWritten
import Verif.Prop.Records
import Verif.Prop.CacheRestoreCheck

/-!
# C57, first part: the space maps that a thin restore writes
-/

namespace Verif.SMD

open Verif.Bld (St Err NB IfOk)

/-! ## Writing the data space map keeps the record of allocations complete -/

theorem rowLoop_kept {P : St SVal → Prop} (hk : Kept P) (begin : Nat) : ∀ (cs : List Nat) (i : Nat) (row : Row) (s : St SVal), P s →
    IfOk (rowLoop begin cs i row s) (fun a => P a.2) := by
  intro cs
  induction cs with
  | nil => intro i row s h; exact .ok h
  | cons c cs ih =>
    intro i row s h
    match c with
    | 0 => exact ih _ _ _ h
    | 1 => exact ih _ _ _ h
    | 2 => exact ih _ _ _ h
    | c + 3 => exact IfOk.bind (x := Bld.pushValue io (begin + i) (.rc (c + 3)) row.nb s) (pushValue_kept hk h) fun a ha => ih _ _ _ ha

theorem writeBitmap_kept {P : St SVal → Prop} (hk : Kept P) {epb : Nat} {es : List BE} {s : SSt} (h : P s.bt) :
    IfOk (writeBitmap epb es s) (fun a => P a.2.bt) := by
  refine IfOk.bind (x := Bld.alloc s.bt) (Q := fun r => P r.2) (fun r e => hk.alloc h e) ?_
  intro r hr
  exact .ok (hk.frame hr rfl rfl)

theorem bitmapLoop_kept {P : St SVal → Prop} (hk : Kept P) (epb : Nat) (cs : List Nat) : ∀ (n bm : Nat) (ies : List IndexEntry) (nb : NB SVal) (s : SSt), P s.bt →
    IfOk (bitmapLoop epb cs n bm ies nb s) (fun a => P a.2.2.bt) := by
  intro n
  induction n with
  | zero => intro bm ies nb s h; exact .ok h
  | succ n ih =>
    intro bm ies nb s h
    refine IfOk.bind (x := rowLoop (bm * epb) _ 0 ⟨[], none, epb, nb⟩ s.bt) (rowLoop_kept hk _ _ _ _ _ h) ?_
    intro r hr
    refine IfOk.bind (x := writeBitmap epb r.1.entries { s with bt := r.2 }) (writeBitmap_kept hk hr) ?_
    intro w hw
    exact ih _ _ _ _ hw

theorem writeDiskSm_kept {P : St SVal → Prop} (hk : Kept P) {epb nrAlloc : Nat} {cs : List Nat} {s : SSt} (h : P s.bt) :
    IfOk (writeDiskSm epb cs nrAlloc s) (fun a => P a.2.bt) := by
  refine IfOk.bind (x := writeCommon epb cs s) (Q := fun c => P c.2.2.bt) ?_ ?_
  · refine IfOk.bind (x := bitmapLoop epb cs _ 0 [] _ s) (bitmapLoop_kept hk _ _ _ _ _ _ _ h) ?_
    intro r hr
    refine IfOk.bind (x := completeTree capI r.2.1 r.2.2.bt) (Q := fun t => P t.2) ?_ fun t ht => .ok ht
    refine IfOk.bind (x := Bld.complete io r.2.1 r.2.2.bt) (complete_kept hk hr) ?_
    intro a ha
    exact buildTree_kept hk ha
  · intro c hc
    refine IfOk.bind (x := Bld.build io capIx capI (indexItems c.1) c.2.2.bt) (buildVals_kept hk ?_ hc) fun x hx => .ok hx
    intro i hi
    obtain ⟨e, -, rfl⟩ := List.mem_map.mp hi
    exact ⟨_, _, rfl⟩

end Verif.SMD

namespace Verif.Rst

open Verif.BT (Tree)
open Verif.SMD (SSt SVal DiskSM MetaSM)

variable {N : Type} [DecidableEq N]

/-- the number of allocated data blocks is that of the blocks that are mapped -/
theorem dataUsed_eq (nr : Nat) (log : List Nat) : dataUsed nr log = ((List.range nr).filter fun b => b ∈ log).length := by
  unfold dataUsed dataCounts
  rw [List.countP_map, List.countP_eq_length_filter]
  congr 1
  apply List.filter_congr
  intro b _
  simp only [Function.comp_apply, decide_eq_decide]
  exact List.count_pos_iff

/-- what the end of a restore writes -/
structure SmsWritten (epb n max : Nat) (r : R N) (out : SbOut) (img : Image) (k : Nat) (droot : SMRoot) (S1 : SSt) (hx ho : Nat) (tx : Tree SVal hx) (to : Tree SVal ho)
    (ies : List IndexEntry) (mroot : SMRoot) (mies : List IndexEntry) (S : SSt) (hM : Nat) (tM : Tree SVal hM) (db mb : Bytes) : Prop where
  disk : DiskSM epb n max (dataCounts r.nrData r.st.log) (smStart r.st) S1 droot hx ho tx to ies
  used : droot.nr_allocated = ((List.range r.nrData).filter fun b => b ∈ r.st.log).length
  metad : MetaSM epb n max k S1 S mroot mies hM tM
  packD : packRoot droot 128 = some db
  packM : packRoot mroot 128 = some mb
  img : img = imageOf r S mroot.bitmap_root mies (superblockOf out db mb mroot.nr_blocks)

omit [DecidableEq N] in
/-- The space maps are written, and right, unless the device is full. -/
theorem writeSms_post {epb n max : Nat} (hz : CacheM.SmSize epb n) {r : R N} (hc : SMD.Cursor n max r.st) (out : SbOut) :
    PostR (writeSms epb r out) (fun img => ∃ k droot S1 hx ho tx to ies mroot mies S hM tM db mb,
      SmsWritten epb n max r out img k droot S1 hx ho tx to ies mroot mies S hM tM db mb) := by
  have hc0 : SMD.Cursor n max (smStart r.st).bt := SMD.cursor_frame hc rfl rfl
  unfold writeSms
  refine PostR.lift_bind (SMD.Post.and (SMD.writeDiskSm_correct hz.epb0 hz.n64 _ _ _ hc0.1) (fun x hx => SMD.writeDiskSm_kept (SMD.cursor_kept n max) hc0 x hx)) ?_
  rintro ⟨droot, S1⟩ ⟨⟨hu, hx, ho, tx, to, ies, hD⟩, hc1⟩
  obtain ⟨hi, k, hp, -⟩ := hc1
  refine PostR.lift_bind (SMD.writeMetadataSm_correct_partial hz.epb0 hz.epb32 hz.n0 hz.max (S0 := S1) hi hp) ?_
  rintro ⟨mroot, mies, S⟩ ⟨hM, tM, hM'⟩
  obtain ⟨db, hdb⟩ := Option.isSome_iff_exists.mp (packRoot_128 droot)
  obtain ⟨mb, hmb⟩ := Option.isSome_iff_exists.mp (packRoot_128 mroot)
  simp only at hdb hmb hu hD hM' ⊢
  rw [hdb, hmb]
  exact ⟨k, droot, S1, hx, ho, tx, to, ies, mroot, mies, S, hM, tM, db, mb, hD, (by rw [hu, dataUsed_eq]), hM', hdb, hmb, rfl⟩

/-- C25 and C57: a whole restore, with its space maps -/
theorem restoreAll_post {epb n max : Nat} (hz : CacheM.SmSize epb n) (hmax : 1 ≤ max) (hn : n < 2 ^ 64 - 1) (mem : Nat → Option (BT.Blk Val)) (sb : SbIR) (hsz : SizeOK sb)
    (sects : List (Sect N)) (hc : Consistent (fun _ => none) sects) (hid : ((meaning (fun _ => none) sects).map fun p => p.1.id).Nodup) :
    PostR (restoreAll epb (docEvents sb sects) ⟨mem, SM.Core.new max n, [], []⟩) (fun img => ∃ (r : R N) (out : SbOut), Restored n max sb (meaning (fun _ => none) sects) r ∧
      r.nrData = sb.nrData ∧ r.out = some out ∧ ∃ k droot S1 hx ho tx to ies mroot mies S hM tM db mb,
        SmsWritten epb n max r out img k droot S1 hx ho tx to ies mroot mies S hM tM db mb) := by
  have h1 := restore_correct (N := N) n max hmax (by omega) mem sb hsz sects hc hid
  have h2 := run_cursor (N := N) hn hmax mem (docEvents sb sects)
  unfold restoreAll
  cases e : run (docEvents sb sects) (R.new N ⟨mem, SM.Core.new max n, [], []⟩) with
  | error er =>
    rw [e] at h1
    cases er with
    | ctl => exact h1
    | bld er => exact h1
  | ok r =>
    rw [e] at h1
    have h1 : Restored n max sb (meaning (fun _ => none) sects) r := h1
    obtain ⟨devs, hm, tm, hd, td, -, -, hout, -⟩ := h1.result
    show PostR (match r.out with | none => .error .ctl | some out => writeSms epb r out) _
    rw [hout]
    have hnr : r.nrData = sb.nrData := doc_nrData e
    have := writeSms_post hz (h2 r e) ⟨sb.time, sb.transaction, sb.blockSize, tm.blk hm, td.blk hd⟩
    refine this.mono ?_
    intro img h
    exact ⟨r, _, h1, hnr, hout, h⟩

end Verif.Rst
