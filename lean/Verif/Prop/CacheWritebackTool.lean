import Verif.Prop.CacheWriteback

/-!
# C35: `cache_writeback` with the copiers of the code

The two copiers meet what `Prop/CacheWriteback.lean` requires; consistent metadata (what `cache_check` accepts) meets its hypotheses; and a concrete run.
-/

namespace Verif.Wb

open Verif.CacheM
open Verif.Bits (ABlock)
open Verif.BT (Tree)
open Verif.Arr (Stored ASt chunk divUp)
open Verif.Cop (CopyOp Stats Loc)

variable {β : Type}

/-! ## The copiers -/

/-- the pages of a block -/
def blockAt (pages : Nat) (s : Loc → β) (l : Loc) : List β := (List.range pages).map fun i => s (l.1, l.2 + i * 4096)

/-- blocks of `pages` pages on the fast device (from `so`) and the origin (from `d`) -/
def pageView (pages so d : Nat) : View (Loc → β) (List β) where
  src s c := blockAt pages s (false, so + c * (pages * 4096))
  dst s o := blockAt pages s (true, d + o * (pages * 4096))

/-- `SyncCopier::copy` between two devices, with blocks made of pages (`Model/Copier.lean`); or it fails as a whole, having done anything -/
def syncCopy (bufferSize pages so d : Nat) : Copy (Loc → β) := fun ops s t st =>
  st = none ∨ ∃ u, Cop.Steps ⟨bufferSize, pages * 4096, so, d, false⟩ (Cop.St.init ⟨bufferSize, pages * 4096, so, d, false⟩ ops (blockAt pages s)) u ∧ u.finished ∧
    (∀ b, blockAt pages t (false, b * (pages * 4096) + so) = u.store (false, b * (pages * 4096) + so)) ∧
    (∀ b, blockAt pages t (true, b * (pages * 4096) + d) = u.store (true, b * (pages * 4096) + d)) ∧ st = some u.stats

/-- `RescueCopier::copy` between two devices (`Model/Rescue.lean`) -/
def rescueCopy (pages so d : Nat) : Copy (Loc → β) := fun ops s t st =>
  st = none ∨ ∃ rd wr buf u, buf.length = pages ∧ Resc.copy ⟨pages, so, d, false⟩ rd wr ops buf s = some u ∧ t = u.store ∧ st = some u.stats

theorem syncCopy_ok {bufferSize pages so d : Nat} (hp : 0 < pages) (hb : pages * 4096 ≤ bufferSize) :
    CopierOk (pageView (β := β) pages so d) (syncCopy bufferSize pages so d) := by
  have main : ∀ {ops : List CopyOp} {s t : Loc → β} {st : Stats}, (ops.map (·.dst)).Nodup → syncCopy bufferSize pages so d ops s t (some st) →
      ∃ u : Cop.St (List β), Cop.Copied ⟨bufferSize, pages * 4096, so, d, false⟩ ops (blockAt pages s) u.store st ∧
        (∀ b, blockAt pages t (false, b * (pages * 4096) + so) = u.store (false, b * (pages * 4096) + so)) ∧
        (∀ b, blockAt pages t (true, b * (pages * 4096) + d) = u.store (true, b * (pages * 4096) + d)) := by
    rintro ops s t st hn (h | ⟨u, h1, h2, h3, h4, h5⟩)
    · cases h
    · cases h5
      refine ⟨u, Cop.copy_correct (by show 0 < pages * 4096; omega) hb ⟨?_, ?_⟩ h1 h2, h3, h4⟩
      · rw [show (ops.map fun op => Cop.Cfg.dstLoc ⟨bufferSize, pages * 4096, so, d, false⟩ op.dst) = (ops.map (·.dst)).map (fun b => ((true, b * (pages * 4096) + d) : Loc)) from by
          rw [List.map_map]; rfl]
        refine map_nodup hn ?_
        intro x _ y _ e
        have e := (Prod.mk.inj e).2
        exact Nat.eq_of_mul_eq_mul_right (by omega : 0 < pages * 4096) (by omega)
      · intro a _ b _ e
        have e := (Prod.mk.inj e).1
        cases e
  constructor
  · intro ops s t st hn h
    obtain ⟨u, hc, -, -⟩ := main hn h
    exact hc.errors.1
  · intro ops s t st hn h op hop hr hw
    obtain ⟨u, hc, -, h4⟩ := main hn h
    show blockAt pages t (true, d + op.dst * (pages * 4096)) = blockAt pages s (false, so + op.src * (pages * 4096))
    rw [Nat.add_comm d, Nat.add_comm so, h4]
    rcases hc.each op hop with h | h | h
    · exact absurd h hr
    · exact absurd h hw
    · exact h
  · intro ops s t st hn h o ho
    obtain ⟨u, hc, -, h4⟩ := main hn h
    show blockAt pages t (true, d + o * (pages * 4096)) = blockAt pages s (true, d + o * (pages * 4096))
    rw [Nat.add_comm d, h4]
    refine hc.frame _ ?_
    intro op hop e
    have e := (Prod.mk.inj e).2
    simp only at e
    exact ho op hop (Nat.eq_of_mul_eq_mul_right (by omega : 0 < pages * 4096) (by omega))
  · intro ops s t st hn h c
    obtain ⟨u, hc, h3, -⟩ := main hn h
    show blockAt pages t (false, so + c * (pages * 4096)) = blockAt pages s (false, so + c * (pages * 4096))
    rw [Nat.add_comm so, h3]
    refine hc.frame _ ?_
    intro op hop e
    have e := (Prod.mk.inj e).1
    cases e

theorem rescueCopy_ok {pages so d : Nat} : CopierOk (pageView (β := β) pages so d) (rescueCopy pages so d) := by
  have main : ∀ {ops : List CopyOp} {s t : Loc → β} {st : Stats}, (ops.map (·.dst)).Nodup → rescueCopy pages so d ops s t (some st) →
      ∃ rd wr log, Resc.Rescued ⟨pages, so, d, false⟩ rd wr ops s t st log := by
    rintro ops s t st hn (h | ⟨rd, wr, buf, u, h1, h2, h3, h4⟩)
    · cases h
    · cases h4
      obtain ⟨u', e, hr⟩ := Resc.rescue_correct ⟨pages, so, d, false⟩ rd wr ops buf s h1 ⟨hn, by
        intro a _ b _ i j _ _ e
        have e := (Prod.mk.inj e).1
        cases e⟩
      rw [h2] at e
      cases e
      exact ⟨rd, wr, _, by rw [h3]; exact hr⟩
  constructor
  · intro ops s t st hn h op hop
    obtain ⟨rd, wr, log, hc⟩ := main hn h
    rcases List.mem_append.mp hop with hop | hop
    · obtain ⟨k, i, hk, -⟩ := (hc.readErrors op).mp hop
      exact List.mem_of_getElem? hk
    · obtain ⟨k, i, hk, -⟩ := (hc.writeErrors op).mp hop
      exact List.mem_of_getElem? hk
  · intro ops s t st hn h op hop hr hw
    obtain ⟨rd, wr, log, hc⟩ := main hn h
    obtain ⟨k, hk⟩ := List.mem_iff_getElem?.mp hop
    refine List.map_congr_left ?_
    intro i hi
    have hi := List.mem_range.mp hi
    have hrd : rd k i = none := Classical.byContradiction fun hx => hr ((hc.readErrors op).mpr ⟨k, i, hk, hi, hx⟩)
    have hwr : wr k i = none := Classical.byContradiction fun hx => hw ((hc.writeErrors op).mpr ⟨k, i, hk, hi, hrd, hx⟩)
    exact hc.copied k op i hk hi hrd hwr
  · intro ops s t st hn h o ho
    obtain ⟨rd, wr, log, hc⟩ := main hn h
    refine List.map_congr_left ?_
    intro i hi
    have hi := List.mem_range.mp hi
    refine hc.frame _ ?_
    intro op hop j hj e
    have hj : j < pages := hj
    have e : (true, d + o * (pages * 4096) + i * 4096) = (true, d + op.dst * (pages * 4096) + j * 4096) := e
    have e := (Prod.mk.inj e).2
    rw [← Nat.mul_assoc, ← Nat.mul_assoc] at e
    have e2 : o * pages + i = op.dst * pages + j := by omega
    have e3 : (i + pages * o) / pages = (j + pages * op.dst) / pages := by
      rw [Nat.mul_comm pages o, Nat.mul_comm pages op.dst, Nat.add_comm i, Nat.add_comm j, e2]
    rw [Nat.add_mul_div_left _ _ (by omega), Nat.add_mul_div_left _ _ (by omega), Nat.div_eq_of_lt hi, Nat.div_eq_of_lt hj] at e3
    exact ho op hop (by omega)
  · intro ops s t st hn h c
    obtain ⟨rd, wr, log, hc⟩ := main hn h
    refine List.map_congr_left ?_
    intro i hi
    refine hc.frame _ ?_
    intro op hop j hj e
    have e := (Prod.mk.inj e).1
    cases e

/-! ## Consistent metadata -/

/-- In consistent mappings no two wanted blocks have the same origin block. -/
theorem consistent_distinct {sb : Cache.Superblock} {origin : Option Nat} {am ad : Nat → Nat} (h : MapsConsistent sb origin am ad) :
    Distinct am (wanted sb am ad) := by
  intro c hc c' hc' e
  obtain ⟨h1, h2, -⟩ := mem_wanted.mp hc
  obtain ⟨g1, g2, -⟩ := mem_wanted.mp hc'
  exact h.2 c c' h1 g1 h2 g2 e

/-- In consistent mappings only mapped blocks are dirty, so what the tool sets out to copy is what it selects. -/
theorem consistent_target {sb : Cache.Superblock} {origin : Option Nat} {am ad : Nat → Nat} (h : MapsConsistent sb origin am ad) :
    target sb am ad = (wanted sb am ad).length := by
  unfold target
  by_cases hc : sb.clean_shutdown = true ∧ sb.version = 2
  · rw [if_pos hc]
    refine congrArg List.length (filter_wanted ?_)
    intro c hlt
    unfold Wanted
    rw [hc.2]
    refine ⟨fun hd => ⟨hlt, ?_, fun _ => hd⟩, fun hw => hw.2.2 hc.1⟩
    have := h.1 c hlt
    rw [hc.2] at this
    cases hv : (ofWord (am c)).isValid
    · have := (this.2 hv).2
      rw [hd] at this
      cases this
    · rfl
  · rw [if_neg hc]

/-- C35: with consistent metadata and working metadata writes the tool reports success if and only if some call copied every block that had to be written back. -/
theorem writeback_complete {σ γ : Type} {v : View σ γ} {copyV copyS copyR : Copy σ} {epb epb4 n : Nat} {sb : Cache.Superblock} {m : ASt Nat} {am ad : Nat → Nat}
    {bm bd : List Nat} (hV : CopierOk v copyV) (hS : CopierOk v copyS) (hR : CopierOk v copyR) (he : 0 < epb) (hk : Disk epb n sb m am ad bm bd)
    {origin : Option Nat} (hc : MapsConsistent sb origin am ad) {wok : Nat → Bool} (hw : ∀ k, wok k = true) {retries : Nat} {s t : σ} {res : Option DErr}
    {d' : Dev} {tr : Calls} (h : Writeback copyV copyS copyR wok (devOf epb epb4 n m) sb epb retries true true s t (res, d') tr) :
    (d' = devOf epb epb4 n m ∧ ∃ e, res = some e ∧ CopyDirty copyV copyS copyR (devOf epb epb4 n m) sb epb retries s t (.error e) tr) ∨
    (res = none ↔ ∀ c, Wanted sb am ad c → Succ tr c) := by
  have hd := consistent_distinct hc
  rcases writeback_exact hV hS hR he hk hd hw h with h1 | ⟨Q, am', ad', q1, qn, qw, q2, q3, q4⟩
  · exact Or.inl h1
  refine Or.inr ?_
  rw [q4, consistent_target hc]
  constructor
  · intro hn c hcw
    refine (q2 c).mp (Classical.byContradiction fun hq => ?_)
    have : (c :: Q).length ≤ (wanted sb am ad).length := List.Nodup.length_le_of_subset (List.nodup_cons.mpr ⟨hq, qn⟩) (by
      intro y hy
      rcases List.mem_cons.mp hy with rfl | hy
      · exact mem_wanted.mpr hcw
      · exact mem_wanted.mpr (qw y hy))
    rw [List.length_cons] at this
    omega
  · intro hall
    refine Nat.le_antisymm (List.Nodup.length_le_of_subset qn fun y hy => mem_wanted.mpr (qw y hy))
      (List.Nodup.length_le_of_subset (wanted_inc sb am ad).nodup fun y hy => (q2 y).mpr (hall y (mem_wanted.mp hy)))

/-- Why consistency is needed: in version 2, after a clean shutdown, a dirty bit of an unmapped cache block makes the tool report a failure even though every block was
copied (`v2_read_dirty_bitset` counts all bits, `src/cache/writeback.rs:149-173`). -/
theorem writeback_unmapped_dirty_refuted {σ γ : Type} {v : View σ γ} {copyV copyS copyR : Copy σ} {epb epb4 n : Nat} {sb : Cache.Superblock} {m : ASt Nat}
    {am ad : Nat → Nat} {bm bd : List Nat} (hV : CopierOk v copyV) (hS : CopierOk v copyS) (hR : CopierOk v copyR) (he : 0 < epb)
    (hk : Disk epb n sb m am ad bm bd) (hd : Distinct am (wanted sb am ad)) (hv : sb.version = 2) (hc : sb.clean_shutdown = true) {c : Nat} (hlt : c < sb.cache_blocks)
    (hun : (ofWord (am c)).isValid = false) (hdirty : dirtyOf 2 am ad c = true) {wok : Nat → Bool} (hw : ∀ k, wok k = true) {retries : Nat} {s t : σ}
    {res : Option DErr} {d' : Dev} {tr : Calls} (h : Writeback copyV copyS copyR wok (devOf epb epb4 n m) sb epb retries true true s t (res, d') tr) :
    res ≠ none := by
  rcases writeback_exact hV hS hR he hk hd hw h with ⟨-, e, h1, -⟩ | ⟨Q, am', ad', q1, qn, qw, q2, q3, q4⟩
  · rw [h1]; simp
  · intro hn
    have hl := q4.mp hn
    unfold target at hl
    rw [if_pos ⟨hc, hv⟩] at hl
    have : (c :: Q).length ≤ ((List.range sb.cache_blocks).filter fun c => dirtyOf 2 am ad c).length := by
      refine List.Nodup.length_le_of_subset (List.nodup_cons.mpr ⟨?_, qn⟩) ?_
      · intro hq
        have := (qw c hq).2.1
        rw [hun] at this
        cases this
      · intro y hy
        rcases List.mem_cons.mp hy with rfl | hy
        · exact List.mem_filter.mpr ⟨List.mem_range.mpr hlt, hdirty⟩
        · obtain ⟨g1, -, g3⟩ := qw y hy
          rw [hv] at g3
          exact List.mem_filter.mpr ⟨List.mem_range.mpr g1, g3 hc⟩
    rw [List.length_cons] at this
    omega

/-- when copying does not come to an end or nothing was to be updated, the metadata is as it was -/
theorem writeback_untouched {σ : Type} {copyV copyS copyR : Copy σ} {wok : Nat → Bool} {d : Dev} {sb : Cache.Superblock} {epb retries : Nat} {aligned update : Bool} {s t : σ}
    {res : Option DErr} {d' : Dev} {tr : Calls} (h : Writeback copyV copyS copyR wok d sb epb retries aligned update s t (res, d') tr)
    (hn : sb.version > 2 ∨ aligned = false ∨ update = false ∨ ∀ k x tr, ¬ CopyDirty copyV copyS copyR d sb epb retries s t (.ok (k, x)) tr) :
    d' = d ∧ (sb.version > 2 ∨ aligned = false → res = some .err ∧ t = s ∧ tr = []) := by
  cases h with
  | version => exact ⟨rfl, fun _ => ⟨rfl, rfl, rfl⟩⟩
  | offsets => exact ⟨rfl, fun _ => ⟨rfl, rfl, rfl⟩⟩
  | copying h1 h2 => exact ⟨rfl, fun h => h.elim (fun h => absurd h h1) (fun h => by rw [h2] at h; cases h)⟩
  | updating h1 h2 h3 h4 =>
    rcases hn with h | h | h | h
    · exact absurd h h1
    · rw [h2] at h; cases h
    · rw [h3] at h; cases h
    · exact absurd h4 (h _ _ _)
  | updated h1 h2 h3 h4 =>
    rcases hn with h | h | h | h
    · exact absurd h h1
    · rw [h2] at h; cases h
    · rw [h3] at h; cases h
    · exact absurd h4 (h _ _ _)
  | kept h1 h2 => exact ⟨rfl, fun h => h.elim (fun h => absurd h h1) (fun h => by rw [h2] at h; cases h)⟩

/-! ## A concrete run

The device of `ckDemo`: cache block 0 is dirty and mapped to origin block 7, cache block 2 is clean.  Reading fails in the first pass; the second pass succeeds. -/

theorem wbDemo_disk : Disk 2 8 ckDemoSb ckDemoS ckDemoWord (fun _ => 0) [2, 3] [] :=
  { version := Or.inl rfl
    size := by decide
    maps := ⟨0, _, ckDemo_stored⟩
    mapsOnce := by decide
    dirty := by intro h; cases h
    dirtyOnce := List.nodup_nil
    fits := by
      intro c
      unfold ckDemoWord
      split
      · decide
      · split <;> decide }

theorem wbDemo_wanted : wanted ckDemoSb ckDemoWord (fun _ => 0) = [0] := by decide

/-- one page per block -/
def wbDemoStore : Loc → Nat := fun l => if l.1 then 0 else 5 + l.2

theorem wbDemo_run : ∃ t d' tr, Writeback (rescueCopy 1 0 0) (rescueCopy 1 0 0) (rescueCopy 1 0 0) (fun _ => true) (devOf 2 4 8 ckDemoS) ckDemoSb 2 3 true true
    wbDemoStore t (none, d') tr ∧ tr.length = 2 ∧ d'.maps 2 = some ⟨2, [7 * 65536 + 1, 0]⟩ := by
  refine ⟨_, _, _, Writeback.updated (n := 1) (x := ⟨[0], [], []⟩) (by decide) rfl rfl
    (CopyDirty.ok (n := 1) (x := ⟨[], [0], []⟩) (y := ⟨[0], [], []⟩) (z := ⟨[0], [], []⟩)
      (CopyAll.ok (sel := .v1 1) (ops := [⟨0, 7⟩]) rfl rfl (Run.next (Or.inr ⟨fun _ _ => some none, fun _ _ => none, [0], _, rfl, rfl, rfl, rfl⟩) (Run.closed _ _)))
      (Retry.again (y := ⟨[0], [], []⟩) (by simp) (CopySelected.ok (ops := [⟨0, 7⟩]) rfl
        (Run.next (Or.inr ⟨fun _ _ => none, fun _ _ => none, [0], _, rfl, rfl, rfl, rfl⟩) (Run.closed _ _))) (Retry.clean _ rfl rfl))
      (Retry.clean _ rfl rfl)) rfl, rfl, rfl⟩

end Verif.Wb
