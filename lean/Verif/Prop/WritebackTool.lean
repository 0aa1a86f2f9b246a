import Verif.Model.WritebackTool
import Verif.Prop.CacheWritebackTool
import Verif.Prop.CacheCheckTool

/-!
# C88: the command `cache_writeback`

What the user relies on: metadata that does not pass the check is left alone, with the data; and since the metadata passed the check, the guarantees of the writeback need no
further assumption about the mappings.
-/

namespace Verif.WbTool

open Verif.CacheM
open Verif.Bits (ABlock)
open Verif.BT (Tree)
open Verif.Arr (Stored ASt divUp)
open Verif.Wb (Copy Calls Writeback View CopierOk Succ Fail Wanted Cleared CopyDirty)

section
variable {σ γ : Type} {w : View σ γ} {copyV copyS copyR : Copy σ} {unpackRoot : Bytes → Option SMRoot} {epb : Nat} {v : Env} {cd : CDev} {s t : σ} {code : Code} {cd' : CDev}
  {tr : Calls}

/-- the check the command runs writes nothing -/
theorem checkOpts_quiet (wr : Nat → Bool) (sbWr : Bool) (unpackRoot : Bytes → Option SMRoot) (cd : CDev) : (check wr sbWr checkOpts unpackRoot cd).1 = cd := by
  refine Classical.byContradiction fun h => ?_
  have := ((check_writes wr sbWr checkOpts unpackRoot cd).2.2.2 h).1
  cases this

/-- **C88**, any metadata at all: if it does not pass the check, nothing is copied and nothing is written, and the command does not end well: with status 65 if the check
reported an error. -/
theorem command_refuses (h : Command copyV copyS copyR unpackRoot epb v cd s t code cd' tr) {e : DErr}
    (hbad : (check v.wr v.sbWr checkOpts unpackRoot cd).2 = some e) :
    t = s ∧ tr = [] ∧ cd' = cd ∧ code = (if e = .err then .dataerr else .crash) := by
  cases h with
  | refused h1 =>
    rw [h1] at hbad
    cases hbad
    refine ⟨rfl, rfl, ?_, rfl⟩
    rw [← checkOpts_quiet v.wr v.sbWr unpackRoot cd, h1]
  | crashed h1 =>
    rw [h1] at hbad
    cases hbad
    refine ⟨rfl, rfl, ?_, rfl⟩
    rw [← checkOpts_quiet v.wr v.sbWr unpackRoot cd, h1]
  | closed h1 _ => rw [h1] at hbad; cases hbad
  | noSb h1 _ _ => rw [h1] at hbad; cases hbad
  | ran h1 _ _ _ => rw [h1] at hbad; cases hbad

theorem codeOf_check (r : Option DErr) : codeOf r ≠ .dataerr := by
  cases r with
  | none => exact fun h => Code.noConfusion h
  | some e => cases e <;> exact fun h => Code.noConfusion h

theorem codeOf_ok {r : Option DErr} : codeOf r = .ok ↔ r = none := by
  cases r with
  | none => simp [codeOf]
  | some e => cases e <;> simp [codeOf]

/-- **C88**, any metadata at all: status 65 means that nothing was copied and nothing was written. -/
theorem command_dataerr (h : Command copyV copyS copyR unpackRoot epb v cd s t .dataerr cd' tr) : t = s ∧ tr = [] ∧ cd' = cd := by
  generalize hc : Code.dataerr = code at h
  cases h with
  | refused h1 => exact ⟨rfl, rfl, by rw [← checkOpts_quiet v.wr v.sbWr unpackRoot cd, h1]⟩
  | crashed _ => cases hc
  | closed _ _ => cases hc
  | noSb _ _ _ => cases hc
  | ran _ _ _ _ => exact absurd hc.symm (codeOf_check _)

/-- **C88**, any metadata at all: the command writes to no part of the metadata but the arrays (of mappings and dirty bits), and to these only if they are to be updated -/
theorem command_metadata (h : Command copyV copyS copyR unpackRoot epb v cd s t code cd' tr) :
    cd'.rdn = cd.rdn ∧ cd'.bm = cd.bm ∧ cd'.index = cd.index ∧ cd'.sb = cd.sb ∧ (v.update = false → cd' = cd) := by
  have key : ∀ {c : CDev} {o : Outcome}, check v.wr v.sbWr checkOpts unpackRoot cd = (c, o) → c = cd := fun {c o} h1 => by
    rw [← checkOpts_quiet v.wr v.sbWr unpackRoot cd, h1]
  cases h with
  | refused h1 => rw [key h1]; exact ⟨rfl, rfl, rfl, rfl, fun _ => rfl⟩
  | crashed h1 => rw [key h1]; exact ⟨rfl, rfl, rfl, rfl, fun _ => rfl⟩
  | closed h1 _ => rw [key h1]; exact ⟨rfl, rfl, rfl, rfl, fun _ => rfl⟩
  | noSb h1 _ _ => rw [key h1]; exact ⟨rfl, rfl, rfl, rfl, fun _ => rfl⟩
  | ran h1 _ _ h4 =>
    cases key h1
    refine ⟨rfl, rfl, rfl, rfl, fun hu => ?_⟩
    rw [(Wb.writeback_untouched h4 (Or.inr (Or.inr (Or.inl hu)))).1]

/-- what the copiers need of the metadata is part of what the check is sure of -/
theorem layout_disk {epb4 n : Nat} {sb : Cache.Superblock} {m : ASt Nat} {am ad : Nat → Nat} {Bd Bm Bh Bw : List Nat} (L : Layout epb epb4 n sb m am ad Bd Bm Bh Bw)
    (h0 : 0 < sb.cache_blocks) (hf : ∀ c, am c < 2 ^ 64) : ∃ bm bd, Wb.Disk epb n sb m am ad bm bd ∧ (∀ x ∈ bm, x ∈ Bm) ∧ ∀ x ∈ bd, x ∈ Bd := by
  have hnd := (List.nodup_cons.mp L.nodup).2
  have hnd := (List.nodup_append.mp (List.nodup_append.mp hnd).1).1
  have hnd := List.nodup_append.mp hnd
  obtain ⟨h, tm, bm, hm, rfl⟩ := L.maps
  have hbm : bm.Nodup := (List.nodup_append.mp hnd.2.1).2.1
  rcases L.version with hv | hv
  · exact ⟨bm, [], ⟨L.version, ⟨h0, L.size⟩, ⟨h, tm, hm⟩, hbm, fun h => (by rw [hv] at h; cases h), List.nodup_nil, hf⟩,
      fun x hx => List.mem_append_right _ hx, fun x hx => by cases hx⟩
  · obtain ⟨dr, hdr, h2, t2, bd, hd, rfl⟩ := L.dirty hv
    exact ⟨bm, bd, ⟨L.version, ⟨h0, L.size⟩, ⟨h, tm, hm⟩, hbm, fun _ => ⟨dr, hdr, h2, t2, hd⟩, (List.nodup_append.mp hnd.1).2.1, hf⟩,
      fun x hx => List.mem_append_right _ hx, fun x hx => List.mem_append_right _ hx⟩

/-- when the metadata is undamaged and something was copied or written, or the command ended well, the mappings are consistent -/
theorem command_ran (h : Command copyV copyS copyR unpackRoot epb v cd s t code cd' tr) {epb4 n : Nat} (he : 0 < epb) {sb : Cache.Superblock} {m : ASt Nat} {am ad : Nat → Nat}
    {Bd Bm Bh Bw : List Nat} (L : Layout epb epb4 n sb m am ad Bd Bm Bh Bw) (hd : cd.dev = devOf epb epb4 n m) (hsb : cd.sb = some sb) :
    (t = s ∧ tr = [] ∧ cd' = cd ∧ code ≠ .ok) ∨
    (v.opens = true ∧ (∃ origin, nrOrigin sb = .ok origin ∧ MapsConsistent sb origin am ad) ∧
      ∃ res d', code = codeOf res ∧ cd' = { cd with dev := d' } ∧
        Writeback copyV copyS copyR v.wok (devOf epb epb4 n m) sb epb v.retries v.aligned v.update s t (res, d') tr) := by
  have key : ∀ {c : CDev} {o : Outcome}, check v.wr v.sbWr checkOpts unpackRoot cd = (c, o) → c = cd := fun {c o} h1 => by
    rw [← checkOpts_quiet v.wr v.sbWr unpackRoot cd, h1]
  cases h with
  | refused h1 => exact Or.inl ⟨rfl, rfl, key h1, fun h => Code.noConfusion h⟩
  | crashed h1 => exact Or.inl ⟨rfl, rfl, key h1, fun h => Code.noConfusion h⟩
  | closed h1 _ => exact Or.inl ⟨rfl, rfl, key h1, fun h => Code.noConfusion h⟩
  | noSb h1 _ _ => exact Or.inl ⟨rfl, rfl, key h1, fun h => Code.noConfusion h⟩
  | ran h1 h2 h3 h4 =>
    cases key h1
    rw [hsb] at h3
    cases h3
    rw [hd] at h4
    exact Or.inr ⟨h2, check_sound he L hd hsb (o := checkOpts) rfl rfl (by rw [h1]), _, _, rfl, rfl, h4⟩

/-- **C88**: with undamaged metadata whose mappings are inconsistent (a flag that cannot be, two cache blocks of one origin block, an origin block out of bounds, a dirty block
without a mapping) no data is touched, whatever the options. -/
theorem command_inconsistent (h : Command copyV copyS copyR unpackRoot epb v cd s t code cd' tr) {epb4 n : Nat} (he : 0 < epb) {sb : Cache.Superblock} {m : ASt Nat}
    {am ad : Nat → Nat} {Bd Bm Bh Bw : List Nat} (L : Layout epb epb4 n sb m am ad Bd Bm Bh Bw) (hd : cd.dev = devOf epb epb4 n m) (hsb : cd.sb = some sb)
    (hc : ∀ origin, nrOrigin sb = .ok origin → ¬ MapsConsistent sb origin am ad) : t = s ∧ tr = [] ∧ cd' = cd ∧ code ≠ .ok := by
  rcases command_ran h he L hd hsb with h1 | ⟨-, ⟨o, h1, h2⟩, -⟩
  · exact h1
  · exact absurd h2 (hc o h1)

/-- **C88**, however the command ends: the dirty flags it clears are those of blocks that had to be written back, that some call copied without an error, and whose contents
the origin now has. -/
theorem command_safe (hV : CopierOk w copyV) (hS : CopierOk w copyS) (hR : CopierOk w copyR) (h : Command copyV copyS copyR unpackRoot epb v cd s t code cd' tr)
    {epb4 n : Nat} (he : 0 < epb) {sb : Cache.Superblock} {m : ASt Nat} {am ad : Nat → Nat} {Bd Bm Bh Bw : List Nat} (L : Layout epb epb4 n sb m am ad Bd Bm Bh Bw)
    (hd : cd.dev = devOf epb epb4 n m) (hsb : cd.sb = some sb) (h0 : 0 < sb.cache_blocks) (hf : ∀ c, am c < 2 ^ 64) :
    ∃ bm bd Q am' ad', (∀ x ∈ bm, x ∈ Bm) ∧ (∀ x ∈ bd, x ∈ Bd) ∧ Cleared epb sb bm bd cd.dev cd'.dev am ad Q am' ad' ∧
      ∀ c ∈ Q, Wanted sb am ad c ∧ Succ tr c ∧ w.dst t (ofWord (am c)).oblock = w.src s c := by
  obtain ⟨bm, bd, hk, i1, i2⟩ := layout_disk L h0 hf
  rcases command_ran h he L hd hsb with ⟨rfl, rfl, rfl, -⟩ | ⟨-, ⟨o, -, hc⟩, res, d', -, rfl, hw⟩
  · exact ⟨bm, bd, [], am, ad, i1, i2, by rw [hd]; exact hk.same, fun c hc => by cases hc⟩
  · obtain ⟨Q, am', ad', q1, q2⟩ := Wb.writeback_safe hV hS hR he hk (Wb.consistent_distinct hc) hw
    exact ⟨bm, bd, Q, am', ad', i1, i2, by rw [hd]; exact q1, q2⟩

/-- **C88**: status 0 means that every block that had to be written back is on the origin, that nothing else on the origin and nothing on the fast device has changed, and that
the flags of exactly these blocks are clear (unless the metadata was not to be updated: then it is unchanged). -/
theorem command_success (hV : CopierOk w copyV) (hS : CopierOk w copyS) (hR : CopierOk w copyR) (h : Command copyV copyS copyR unpackRoot epb v cd s t .ok cd' tr)
    {epb4 n : Nat} (he : 0 < epb) {sb : Cache.Superblock} {m : ASt Nat} {am ad : Nat → Nat} {Bd Bm Bh Bw : List Nat} (L : Layout epb epb4 n sb m am ad Bd Bm Bh Bw)
    (hd : cd.dev = devOf epb epb4 n m) (hsb : cd.sb = some sb) (h0 : 0 < sb.cache_blocks) (hf : ∀ c, am c < 2 ^ 64) :
    (∀ c, Wanted sb am ad c → w.dst t (ofWord (am c)).oblock = w.src s c) ∧
    (∀ o, (∀ c, Wanted sb am ad c → (ofWord (am c)).oblock ≠ o) → w.dst t o = w.dst s o) ∧ (∀ c, w.src t c = w.src s c) ∧
    (v.update = false → cd' = cd) ∧
    (v.update = true → ∃ bm bd am' ad', (∀ x ∈ bm, x ∈ Bm) ∧ (∀ x ∈ bd, x ∈ Bd) ∧ Cleared epb sb bm bd cd.dev cd'.dev am ad (Wb.wanted sb am ad) am' ad') := by
  obtain ⟨bm, bd, hk, i1, i2⟩ := layout_disk L h0 hf
  have hm := (command_metadata h).2.2.2.2
  rcases command_ran h he L hd hsb with ⟨-, -, -, h4⟩ | ⟨-, ⟨o, -, hc⟩, res, d', h4, rfl, hw⟩
  · exact absurd rfl h4
  · cases codeOf_ok.mp h4.symm
    obtain ⟨q1, q2, q3, -, q5⟩ := Wb.writeback_success hV hS hR he hk (Wb.consistent_distinct hc) hw
    refine ⟨q1, q2, q3, hm, fun hu => ?_⟩
    obtain ⟨am', ad', q⟩ := q5 hu
    exact ⟨bm, bd, am', ad', i1, i2, by rw [hd]; exact q⟩

/-- **C88**: if the metadata passes the check and can be opened and written, the offsets are aligned and the metadata is to be updated, then either copying broke off and nothing
is written to the metadata, or status 0 is reported if and only if some call copied every block that had to be written back. -/
theorem command_exact (hV : CopierOk w copyV) (hS : CopierOk w copyS) (hR : CopierOk w copyR) (h : Command copyV copyS copyR unpackRoot epb v cd s t code cd' tr)
    {epb4 n : Nat} (he : 0 < epb) {sb : Cache.Superblock} {m : ASt Nat} {am ad : Nat → Nat} {Bd Bm Bh Bw : List Nat} (L : Layout epb epb4 n sb m am ad Bd Bm Bh Bw)
    (hd : cd.dev = devOf epb epb4 n m) (hsb : cd.sb = some sb) (h0 : 0 < sb.cache_blocks) (hf : ∀ c, am c < 2 ^ 64)
    (hpass : (check v.wr v.sbWr checkOpts unpackRoot cd).2 = none) (hop : v.opens = true) (hal : v.aligned = true) (hup : v.update = true) (hwr : ∀ k, v.wok k = true) :
    (cd' = cd ∧ (code = .err ∨ code = .crash) ∧ ∃ e, CopyDirty copyV copyS copyR (devOf epb epb4 n m) sb epb v.retries s t (.error e) tr) ∨
    (code = .ok ↔ ∀ c, Wanted sb am ad c → Succ tr c) := by
  obtain ⟨bm, bd, hk, -, -⟩ := layout_disk L h0 hf
  have key : ∀ {c : CDev} {o : Outcome}, check v.wr v.sbWr checkOpts unpackRoot cd = (c, o) → c = cd := fun {c o} h1 => by
    rw [← checkOpts_quiet v.wr v.sbWr unpackRoot cd, h1]
  cases h with
  | refused h1 => rw [h1] at hpass; cases hpass
  | crashed h1 => rw [h1] at hpass; cases hpass
  | closed _ h2 => rw [hop] at h2; cases h2
  | noSb h1 _ h3 => rw [key h1, hsb] at h3; cases h3
  | ran h1 h2 h3 h4 =>
    obtain ⟨o, -, hc⟩ := check_sound he L hd hsb (o := checkOpts) rfl rfl hpass
    cases key h1
    rw [hsb] at h3
    cases h3
    rw [hd, hal, hup] at h4
    rcases Wb.writeback_complete hV hS hR he hk hc hwr h4 with ⟨h5, e, h6, h7⟩ | h5
    · refine Or.inl ⟨by rw [h5, ← hd], ?_, e, h7⟩
      rw [h6]
      cases e
      · exact Or.inl rfl
      · exact Or.inr rfl
    · exact Or.inr (codeOf_ok.trans h5)

end

/-! ## Concrete runs

The device of `ckDemo` passes the check; cache block 0 is dirty and mapped to origin block 7, cache block 2 is clean. -/

def demoEnv : Env := ⟨fun _ => true, true, fun _ => true, true, 3, true, true⟩

theorem demo_check : check (fun _ => true) true checkOpts (fun _ => some ckDemoRoot) ckDemoDev = (ckDemoDev, none) := by
  have h1 : (check (fun _ => true) true checkOpts (fun _ => some ckDemoRoot) ckDemoDev).1 = ckDemoDev := checkOpts_quiet _ _ _ _
  have h2 : (check (fun _ => true) true checkOpts (fun _ => some ckDemoRoot) ckDemoDev).2 = none := by decide +kernel
  exact Prod.ext h1 h2

/-- a run that ends well: the first reading fails, the second pass copies the block, and its flag is cleared -/
theorem demo_run : ∃ t cd' tr, Command (Wb.rescueCopy 1 0 0) (Wb.rescueCopy 1 0 0) (Wb.rescueCopy 1 0 0) (fun _ => some ckDemoRoot) 2 demoEnv ckDemoDev Wb.wbDemoStore t .ok cd' tr ∧
    tr.length = 2 ∧ cd'.dev.maps 2 = some ⟨2, [7 * 65536 + 1, 0]⟩ := by
  obtain ⟨t, d', tr, h, h1, h2⟩ := Wb.wbDemo_run
  exact ⟨t, { ckDemoDev with dev := d' }, tr, Command.ran (v := demoEnv) (cd' := ckDemoDev) (sb := ckDemoSb) (res := none) demo_check rfl rfl h, h1, h2⟩

/-- the run meets the hypotheses of `command_success`: the block has arrived at the origin, and no other block of the origin has changed -/
theorem demo_success : ∃ t cd' tr, Command (Wb.rescueCopy 1 0 0) (Wb.rescueCopy 1 0 0) (Wb.rescueCopy 1 0 0) (fun _ => some ckDemoRoot) 2 demoEnv ckDemoDev Wb.wbDemoStore t .ok cd' tr ∧
    (Wb.pageView 1 0 0).dst t 7 = [5] ∧ ∀ o, o ≠ 7 → (Wb.pageView 1 0 0).dst t o = (Wb.pageView 1 0 0).dst Wb.wbDemoStore o := by
  obtain ⟨t, cd', tr, h, -, -⟩ := demo_run
  have hf : ∀ c, ckDemoWord c < 2 ^ 64 := Wb.wbDemo_disk.fits
  obtain ⟨h1, h2, -⟩ := command_success Wb.rescueCopy_ok Wb.rescueCopy_ok Wb.rescueCopy_ok h (by decide) ckDemo_layout rfl rfl (by decide) hf
  have hw : Wanted ckDemoSb ckDemoWord (fun _ => 0) 0 := by decide
  refine ⟨t, cd', tr, h, h1 0 hw, fun o ho => h2 o fun c hc => ?_⟩
  have : c ∈ Wb.wanted ckDemoSb ckDemoWord (fun _ => 0) := Wb.mem_wanted.mpr hc
  rw [Wb.wbDemo_wanted, List.mem_singleton] at this
  rw [this]
  exact fun h => ho h.symm

/-- two cache blocks of the same origin block -/
def badDev : CDev :=
  { ckDemoDev with dev := devOf 2 4 8 { ckDemoS with arr := fun b => if b = 2 then some [ckDemoWord 0, 0] else if b = 3 then some [ckDemoWord 0] else none } }

/-- with inconsistent mappings there is a run, and it is the one that does nothing -/
theorem demo_refused (copy : Copy (Cop.Loc → Nat)) : Command copy copy copy (fun _ => some ckDemoRoot) 2 demoEnv badDev Wb.wbDemoStore Wb.wbDemoStore .dataerr badDev [] := by
  refine Command.refused _ ?_
  have h1 : (check (fun _ => true) true checkOpts (fun _ => some ckDemoRoot) badDev).1 = badDev := checkOpts_quiet _ _ _ _
  have h2 : (check (fun _ => true) true checkOpts (fun _ => some ckDemoRoot) badDev).2 = some .err := by decide +kernel
  show check (fun _ => true) true checkOpts (fun _ => some ckDemoRoot) badDev = (badDev, some .err)
  exact Prod.ext h1 h2

/-! ## A cache without blocks -/

/-- metadata of version 1 of a cache without blocks -/
def emptySb : Cache.Superblock := { ckDemoSb with cache_blocks := 0 }

def emptyS : ASt Nat :=
  { bt := { mem := fun b => if b = 1 then some (.leaf []) else none
            sm := ⟨255, 7, 5, [1, 1, 0, 0, 1, 1, 1, 0]⟩
            log := [] }
    arr := fun _ => none }

def emptyDev : CDev :=
  { ckDemoDev with
    dev := devOf 2 4 8 emptyS
    bm := fun b => if b = 6 then some (true, [.small 1, .small 1, .small 0, .small 0, .small 1, .small 1, .small 1, .small 0]) else none
    sb := some emptySb }

theorem empty_check : check (fun _ => true) true checkOpts (fun _ => some ckDemoRoot) emptyDev = (emptyDev, none) := by
  have h1 : (check (fun _ => true) true checkOpts (fun _ => some ckDemoRoot) emptyDev).1 = emptyDev := checkOpts_quiet _ _ _ _
  have h2 : (check (fun _ => true) true checkOpts (fun _ => some ckDemoRoot) emptyDev).2 = none := by decide +kernel
  exact Prod.ext h1 h2

/-- The assumption `0 < cache_blocks` cannot be dropped: metadata of a cache without blocks passes the check, there is nothing to write back, and the command crashes
(`ablocks[0]`, `src/cache/writeback.rs:466`) where it should end with status 0. -/
theorem command_empty_refuted {σ : Type} (copy : Copy σ) (s : σ) (hcopy : copy [] s s (some ⟨0, [], []⟩)) :
    (∀ c, ¬ Wanted emptySb (fun _ => 0) (fun _ => 0) c) ∧
    Command copy copy copy (fun _ => some ckDemoRoot) 2 demoEnv emptyDev s s .crash emptyDev [([], ⟨0, [], []⟩)] ∧
    ¬ ∃ t cd' tr, Command copy copy copy (fun _ => some ckDemoRoot) 2 demoEnv emptyDev s t .ok cd' tr := by
  have hupd : ∀ Q d', Wb.updateMetadata (fun _ => true) emptyDev.dev emptySb 2 Q ≠ (none, d') := fun Q d' h => by
    have h1 := (Prod.mk.inj h).1
    cases h1
  refine ⟨fun c hc => absurd hc.1 (Nat.not_lt_zero c), ?_, ?_⟩
  · have := Writeback.updating (copyV := copy) (copyS := copy) (copyR := copy) (wok := fun _ => true) (d := emptyDev.dev) (sb := emptySb) (epb := 2) (retries := 3)
      (aligned := true) (update := true) (s := s) (t := s) (n := 0) (x := ⟨[], [], []⟩) (e := .panic) (d' := emptyDev.dev) (tr := [([], ⟨0, [], []⟩)]) (by decide) rfl rfl
      (Wb.CopyDirty.ok (n := 0) (x := ⟨[], [], []⟩) (y := ⟨[], [], []⟩) (z := ⟨[], [], []⟩) (tr := [([], ⟨0, [], []⟩)]) (tr' := []) (tr'' := [])
        (Wb.CopyAll.ok (sel := .v1 0) (ops := []) rfl rfl (Wb.Run.next hcopy (Wb.Run.closed _ _))) (Wb.Retry.clean _ rfl rfl) (Wb.Retry.clean _ rfl rfl)) rfl
    exact Command.ran (v := demoEnv) (cd' := emptyDev) (sb := emptySb) (res := some .panic) (d' := emptyDev.dev) empty_check rfl rfl this
  · rintro ⟨t, cd', tr, h⟩
    generalize hc : Code.ok = code at h
    cases h with
    | refused _ => cases hc
    | crashed _ => cases hc
    | closed _ _ => cases hc
    | noSb _ _ _ => cases hc
    | ran h1 _ h3 h4 =>
      cases h1.symm.trans empty_check
      cases h3
      cases codeOf_ok.mp hc.symm
      generalize hr : ((none : Option DErr), _) = r at h4
      cases h4 with
      | version h => cases hr
      | offsets _ h => cases hr
      | copying => cases hr
      | updating => cases hr
      | updated _ _ _ _ h => exact hupd _ _ h
      | kept _ _ h => cases h

/-- the copier of the third pass is such a copier -/
example (s : Cop.Loc → Nat) : ∃ st, Wb.rescueCopy 1 0 0 [] s s st ∧ st = some ⟨0, [], []⟩ :=
  ⟨_, Or.inr ⟨fun _ _ => none, fun _ _ => none, [0], _, rfl, rfl, rfl, rfl⟩, rfl⟩

end Verif.WbTool
