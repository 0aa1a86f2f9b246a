import Verif.Prop.WritebackTool
import Verif.Prop.CacheRestoreCheck

/-!
# C91: writing back a cache that was restored

From the document given to `cache_restore` to the data on the origin device: the dirty blocks of the document, and no others, are written back by `cache_writeback`.
-/

namespace Verif.WbTool

open Verif.CacheM
open Verif.Bits (ABlock)
open Verif.Arr (ASt arrayOf divUp)
open Verif.Wb (Copy Calls View CopierOk Succ Wanted)

theorem mapWord_lt {m : Mapping} (h : m.flags < 2 ^ 64) : mapWord m < 2 ^ 64 := by
  unfold mapWord
  exact Nat.or_lt_two_pow (Nat.mod_lt _ (by decide)) h

/-- the words of the mappings of a document are words -/
theorem words_fit (version : Nat) (ms : List (Nat × Nat × Bool)) (c : Nat) : arrayOf (ms.map (wordOf version)) c < 2 ^ 64 := by
  rw [arrayOf_map (wordOf version) (·.1) (fun _ => rfl)]
  cases ms.find? (fun x => x.1 == c) with
  | none => exact Nat.two_pow_pos 64
  | some m =>
    unfold wordOf
    refine mapWord_lt ?_
    simp only
    split <;> decide

/-- what a restored document looks like to the writeback -/
theorem restored_layout {epb : Nat} {cfg : Cfg} (hv : cfg.version = 1 ∨ cfg.version = 2) {n max : Nat} (he8 : 0 < cfg.epb8) (he4 : 0 < cfg.epb4)
    (hL : 2 ≤ cfg.capL) (hI : 4 ≤ cfg.capI) (hz : SmSize epb n) (hw : cfg.writeSm = smWriter epb) {clean : Bool} {body : List Ev} {dev : ASt Nat}
    (hdev : New n max dev) {r : RSt} (hr : restore cfg clean (body ++ [.eof]) dev = .ok r) {sb : SbIr} (hsb : sbsIn body = [sb])
    (h4 : sb.hintWidth = 4) (h32 : sb.nrCacheBlocks < 2 ^ 32) (ho : ∀ m ∈ mapsIn body, m.2.1 < 2 ^ 48) :
    ∃ out ad Bd Bm Bh Bw, (imageOf cfg n r).sb = some out ∧ out.cache_blocks = sb.nrCacheBlocks ∧
      Layout cfg.epb8 cfg.epb4 n out r.dev (arrayOf ((mapsIn body).map (wordOf cfg.version))) ad Bd Bm Bh Bw ∧
      (∀ c, Wanted out (arrayOf ((mapsIn body).map (wordOf cfg.version))) ad c ↔ ∃ m ∈ mapsIn body, m.1 = c ∧ (clean = true → m.2.2 = true)) ∧
      ∀ m ∈ mapsIn body, (ofWord (arrayOf ((mapsIn body).map (wordOf cfg.version)) m.1)).oblock = m.2.1 := by
  obtain ⟨sb', hsb', hD⟩ := restored_done hv he8 he4 hL hI hz.n64 (smWriter_ok hz max hw) hdev hr
  rw [hsb] at hsb'; cases hsb'
  obtain ⟨out, ad, h1, -, k1, k2, o1, o2, o3, o4, o5, o6, o7, d1, d2, Bd, Bm, Bh, Bw, dev3, b1, b2, b3, b4, b5, ⟨mx, b6⟩, b7, b8, b9⟩ := hD.out
  have hnd := nodup_of_count b7 b8
  rw [o5] at b1 b2 b4
  have hnot0 : ∀ x ∈ Bd ++ Bm ++ Bh ++ Bw, x ≠ 0 := by
    rintro x hx rfl
    exact (List.nodup_cons.mp hnd).1 hx
  have hh0 : out.hint_root ≠ 0 := hnot0 _ (by simp [root_mem b4])
  have hd0 : out.discard_root ≠ 0 := hnot0 _ (by simp [root_mem b5])
  have hp := hD.order.1
  have hword : ∀ m ∈ mapsIn body, arrayOf ((mapsIn body).map (wordOf cfg.version)) m.1 = (wordOf cfg.version m).2 := fun m hm => by
    rw [arrayOf_map (wordOf cfg.version) (·.1) (fun _ => rfl), find_self hp hm]
  refine ⟨out, ad, Bd, Bm, Bh, Bw, h1, o5, ?_, fun c => ?_, fun m hm => by rw [hword m hm]; exact (word_of_mapping (ho m hm)).2.1⟩
  · exact { version := by rw [o1]; exact hv
            size := by rw [o5]; exact h32
            maps := by rw [o5]; exact b1
            dirty := by rw [o1, o5]; exact b2
            noDirty := by rw [o1]; exact b3
            hints := fun _ => ⟨by rw [o3]; exact h4, _, by rw [o5]; exact b4⟩
            noHints := fun h => absurd ⟨hh0, by rw [o3, h4]; decide⟩ h
            discards := fun _ => ⟨_, by rw [d2]; exact b5⟩
            noDiscards := fun h => absurd h hd0
            nodup := hnd }
  · have hdirty : ∀ m ∈ mapsIn body, dirtyOf cfg.version (arrayOf ((mapsIn body).map (wordOf cfg.version))) ad m.1 = m.2.2 := by
      intro m hm
      unfold dirtyOf
      by_cases h1 : cfg.version = 1
      · rw [if_pos h1, hword m hm]
        exact (word_of_mapping (ho m hm)).2.2 h1
      · rw [if_neg h1]
        have h2 := o7 (by omega) m.1
        have h3 : dirtyIn (mapsIn body) m.1 ↔ m.2.2 = true := by
          constructor
          · rintro ⟨m', hm', e, hd⟩
            have e1 := find_self hp hm'
            rw [e, find_self hp hm] at e1
            cases e1
            exact hd
          · exact fun hd => ⟨m, hm, rfl, hd⟩
        rw [h3] at h2
        exact Bool.eq_iff_iff.mpr h2
    unfold Wanted
    rw [o1, o5, k1]
    constructor
    · rintro ⟨-, h2, h3⟩
      have key : ∃ m ∈ mapsIn body, m.1 = c := by
        rw [arrayOf_map (wordOf cfg.version) (·.1) (fun _ => rfl)] at h2
        cases e : (mapsIn body).find? (fun x => x.1 == c) with
        | none => rw [e] at h2; simp only [word_zero] at h2; cases h2
        | some m => exact ⟨m, find_mem e, by simpa using List.find?_some e⟩
      obtain ⟨m, hm, rfl⟩ := key
      exact ⟨m, hm, rfl, fun hc => by rw [← hdirty m hm]; exact h3 hc⟩
    · rintro ⟨m, hm, rfl, hd⟩
      refine ⟨hD.order.2.2.1 m hm, ?_, fun hc => by rw [hdirty m hm]; exact hd hc⟩
      rw [hword m hm]
      exact (word_of_mapping (ho m hm)).1

section
variable {σ γ : Type} {w : View σ γ} {copyV copyS copyR : Copy σ} {v : Env} {s t : σ} {code : Code} {cd' : CDev} {tr : Calls}

/-- **C91**: a cache restored from a document in which no two mappings have the same origin block is not refused; one that has two such mappings is, and nothing is touched. -/
theorem restored_accepted {epb : Nat} {cfg : Cfg} (hv : cfg.version = 1 ∨ cfg.version = 2) {n max : Nat} (he8 : 0 < cfg.epb8) (he4 : 0 < cfg.epb4)
    (hL : 2 ≤ cfg.capL) (hI : 4 ≤ cfg.capI) (hz : SmSize epb n) (hw : cfg.writeSm = smWriter epb) {clean : Bool} {body : List Ev} {dev : ASt Nat}
    (hdev : New n max dev) {r : RSt} (hr : restore cfg clean (body ++ [.eof]) dev = .ok r) {sb : SbIr} (hsb : sbsIn body = [sb])
    (h4 : sb.hintWidth = 4) (h32 : sb.nrCacheBlocks < 2 ^ 32) (ho : ∀ m ∈ mapsIn body, m.2.1 < 2 ^ 48)
    (h : Command copyV copyS copyR rootIn cfg.epb8 v (imageOf cfg n r) s t code cd' tr) :
    ((mapsIn body).Pairwise (fun a b => a.2.1 ≠ b.2.1) → code ≠ .dataerr) ∧
    (¬ (mapsIn body).Pairwise (fun a b => a.2.1 ≠ b.2.1) → t = s ∧ tr = [] ∧ cd' = imageOf cfg n r ∧ code ≠ .ok) := by
  obtain ⟨hc, -⟩ := restore_check hv he8 he4 hL hI hz hw hdev hr hsb h4 h32 ho (wr := v.wr) (sbWr := v.sbWr) (o := checkOpts) ⟨rfl, rfl, rfl, rfl⟩
  constructor
  · intro hp hcode
    have hok := hc.mpr hp
    cases h with
    | refused h1 => rw [h1] at hok; cases hok
    | crashed _ => cases hcode
    | closed _ _ => cases hcode
    | noSb _ _ _ => cases hcode
    | ran _ _ _ _ => exact codeOf_check _ hcode
  · intro hp
    cases he : (check v.wr v.sbWr checkOpts rootIn (imageOf cfg n r)).2 with
    | none => exact absurd (hc.mp he) hp
    | some e =>
      obtain ⟨h1, h2, h3, h5⟩ := command_refuses h he
      refine ⟨h1, h2, h3, ?_⟩
      rw [h5]
      split <;> exact fun h => Code.noConfusion h

/-- **C91**: when `cache_writeback` reports success for a restored cache, the contents of every dirty block of the document (every block, if the cache was not shut down) are on
the origin, at the place the document says; nothing else on the origin has changed, and nothing on the fast device. -/
theorem restored_writeback (hV : CopierOk w copyV) (hS : CopierOk w copyS) (hR : CopierOk w copyR) {epb : Nat} {cfg : Cfg} (hv : cfg.version = 1 ∨ cfg.version = 2) {n max : Nat}
    (he8 : 0 < cfg.epb8) (he4 : 0 < cfg.epb4) (hL : 2 ≤ cfg.capL) (hI : 4 ≤ cfg.capI) (hz : SmSize epb n) (hw : cfg.writeSm = smWriter epb) {clean : Bool} {body : List Ev}
    {dev : ASt Nat} (hdev : New n max dev) {r : RSt} (hr : restore cfg clean (body ++ [.eof]) dev = .ok r) {sb : SbIr} (hsb : sbsIn body = [sb])
    (h4 : sb.hintWidth = 4) (h32 : sb.nrCacheBlocks < 2 ^ 32) (h0 : 0 < sb.nrCacheBlocks) (ho : ∀ m ∈ mapsIn body, m.2.1 < 2 ^ 48)
    (h : Command copyV copyS copyR rootIn cfg.epb8 v (imageOf cfg n r) s t .ok cd' tr) :
    (∀ m ∈ mapsIn body, (clean = true → m.2.2 = true) → w.dst t m.2.1 = w.src s m.1) ∧
    (∀ o, (∀ m ∈ mapsIn body, (clean = true → m.2.2 = true) → m.2.1 ≠ o) → w.dst t o = w.dst s o) ∧ ∀ c, w.src t c = w.src s c := by
  obtain ⟨out, ad, Bd, Bm, Bh, Bw, h1, h2, L, hwant, hob⟩ := restored_layout hv he8 he4 hL hI hz hw hdev hr hsb h4 h32 ho
  obtain ⟨q1, q2, q3, -⟩ := command_success hV hS hR h he8 L rfl h1 (by rw [h2]; exact h0) (words_fit cfg.version (mapsIn body))
  refine ⟨fun m hm hd => ?_, fun o hn => q2 o fun c hc => ?_, q3⟩
  · rw [← hob m hm]
    exact q1 m.1 ((hwant m.1).mpr ⟨m, hm, rfl, hd⟩)
  · obtain ⟨m, hm, rfl, hd⟩ := (hwant c).mp hc
    rw [hob m hm]
    exact hn m hm hd

/-- **C91**: and if the metadata can be opened and written and the offsets are aligned, success is reported exactly if all of these blocks were copied, unless copying broke off. -/
theorem restored_exact (hV : CopierOk w copyV) (hS : CopierOk w copyS) (hR : CopierOk w copyR) {epb : Nat} {cfg : Cfg} (hv : cfg.version = 1 ∨ cfg.version = 2) {n max : Nat}
    (he8 : 0 < cfg.epb8) (he4 : 0 < cfg.epb4) (hL : 2 ≤ cfg.capL) (hI : 4 ≤ cfg.capI) (hz : SmSize epb n) (hw : cfg.writeSm = smWriter epb) {clean : Bool} {body : List Ev}
    {dev : ASt Nat} (hdev : New n max dev) {r : RSt} (hr : restore cfg clean (body ++ [.eof]) dev = .ok r) {sb : SbIr} (hsb : sbsIn body = [sb])
    (h4 : sb.hintWidth = 4) (h32 : sb.nrCacheBlocks < 2 ^ 32) (h0 : 0 < sb.nrCacheBlocks) (ho : ∀ m ∈ mapsIn body, m.2.1 < 2 ^ 48)
    (hp : (mapsIn body).Pairwise fun a b => a.2.1 ≠ b.2.1) (hop : v.opens = true) (hal : v.aligned = true) (hup : v.update = true) (hwr : ∀ k, v.wok k = true)
    (h : Command copyV copyS copyR rootIn cfg.epb8 v (imageOf cfg n r) s t code cd' tr) :
    (cd' = imageOf cfg n r ∧ (code = .err ∨ code = .crash)) ∨
    (code = .ok ↔ ∀ m ∈ mapsIn body, (clean = true → m.2.2 = true) → Succ tr m.1) := by
  obtain ⟨out, ad, Bd, Bm, Bh, Bw, h1, h2, L, hwant, hob⟩ := restored_layout hv he8 he4 hL hI hz hw hdev hr hsb h4 h32 ho
  have hpass := (restore_check hv he8 he4 hL hI hz hw hdev hr hsb h4 h32 ho (wr := v.wr) (sbWr := v.sbWr) (o := checkOpts) ⟨rfl, rfl, rfl, rfl⟩).1.mpr hp
  rcases command_exact hV hS hR h he8 L rfl h1 (by rw [h2]; exact h0) (words_fit cfg.version (mapsIn body)) hpass hop hal hup hwr with ⟨q1, q2, -⟩ | q
  · exact Or.inl ⟨q1, q2⟩
  · refine Or.inr (q.trans ⟨fun h m hm hd => h m.1 ((hwant m.1).mpr ⟨m, hm, rfl, hd⟩), fun h c hc => ?_⟩)
    obtain ⟨m, hm, rfl, hd⟩ := (hwant c).mp hc
    exact h m hm hd

end

/-! ## A restored cache whose dirty block is written back -/

def demoBody : List Ev := [.superblockB (smallSb 4), .mappingsB, .mapping 0 9 true, .mapping 4 7 false, .mappingsE, .hintsB, .hintsE, .superblockE]

/-- the hypotheses on the document are met -/
theorem demoBody_facts : sbsIn demoBody = [smallSb 4] ∧ (smallSb 4).hintWidth = 4 ∧ 0 < (smallSb 4).nrCacheBlocks ∧ (smallSb 4).nrCacheBlocks < 2 ^ 32 ∧
    (∀ m ∈ mapsIn demoBody, m.2.1 < 2 ^ 48) ∧ (mapsIn demoBody).Pairwise (fun a b => a.2.1 ≠ b.2.1) ∧ SmSize 8 24 ∧ New 24 100 newDev :=
  ⟨rfl, rfl, by decide, by decide, by decide, by decide, ⟨by decide, by decide, by decide, by decide, by decide⟩, rfl, rfl, by decide⟩

def demoKeep : Env := { demoEnv with update := false }

/-- what is computed of the restored metadata (version 1): the check passes, and there is one block to write back -/
def demoComputed : Bool :=
  match restore (fullCfg 1) true (demoBody ++ [.eof]) newDev with
  | .error _ => false
  | .ok r =>
    match r.out with
    | none => false
    | some sb =>
      decide (¬ sb.version > 2) && decide ((check (fun _ => true) true checkOpts rootIn (imageOf (fullCfg 1) 24 r)).2 = none) &&
      match Wb.mkSelector (imageOf (fullCfg 1) 24 r).dev sb with
      | .error _ => false
      | .ok sel =>
        decide (sel.nr = 1) &&
        match Wb.allOps (imageOf (fullCfg 1) 24 r).dev sb.mapping_root sel with
        | .error _ => false
        | .ok ops => decide (ops = [⟨0, 9⟩])

theorem demo_computed : demoComputed = true := by decide +kernel

/-- the document is restored, and `cache_writeback` succeeds on what was restored: origin block 9 gets what cache block 0 holds, no other block changes -/
theorem demo_restored : ∃ r, restore (fullCfg 1) true (demoBody ++ [.eof]) newDev = .ok r ∧
    ∃ t cd' tr, Command (Wb.rescueCopy 1 0 0) (Wb.rescueCopy 1 0 0) (Wb.rescueCopy 1 0 0) rootIn 3 demoKeep (imageOf (fullCfg 1) 24 r) Wb.wbDemoStore t .ok cd' tr ∧
      (Wb.pageView 1 0 0).dst t 9 = [5] ∧ ∀ o, o ≠ 9 → (Wb.pageView 1 0 0).dst t o = (Wb.pageView 1 0 0).dst Wb.wbDemoStore o := by
  have hc := demo_computed
  unfold demoComputed at hc
  cases hr : restore (fullCfg 1) true (demoBody ++ [.eof]) newDev with
  | error e => rw [hr] at hc; cases hc
  | ok r =>
    rw [hr] at hc
    simp only at hc
    cases ho : r.out with
    | none => rw [ho] at hc; cases hc
    | some sb =>
      rw [ho] at hc
      simp only [Bool.and_eq_true, decide_eq_true_eq] at hc
      obtain ⟨⟨hv, hk⟩, hc⟩ := hc
      cases hs : Wb.mkSelector (imageOf (fullCfg 1) 24 r).dev sb with
      | error e => rw [hs] at hc; cases hc
      | ok sel =>
        rw [hs] at hc
        simp only [Bool.and_eq_true, decide_eq_true_eq] at hc
        obtain ⟨hn, hc⟩ := hc
        cases ha : Wb.allOps (imageOf (fullCfg 1) 24 r).dev sb.mapping_root sel with
        | error e => rw [ha] at hc; cases hc
        | ok ops =>
          rw [ha] at hc
          simp only [decide_eq_true_eq] at hc
          subst hc
          have hq : (check (fun _ => true) true checkOpts rootIn (imageOf (fullCfg 1) 24 r)).1 = imageOf (fullCfg 1) 24 r := checkOpts_quiet _ _ _ _
          have run : Wb.Writeback (Wb.rescueCopy 1 0 0) (Wb.rescueCopy 1 0 0) (Wb.rescueCopy 1 0 0) (fun _ => true) (imageOf (fullCfg 1) 24 r).dev sb 3 3 true false
              Wb.wbDemoStore _ (if [0].length ≠ sel.nr then some .err else none, (imageOf (fullCfg 1) 24 r).dev) _ :=
            Wb.Writeback.kept (n := sel.nr) (x := ⟨[0], [], []⟩) hv rfl rfl
              (Wb.CopyDirty.ok (n := sel.nr) (x := ⟨[0], [], []⟩) (y := ⟨[0], [], []⟩) (z := ⟨[0], [], []⟩)
                (Wb.CopyAll.ok (sel := sel) (ops := [⟨0, 9⟩]) hs ha
                  (Wb.Run.next (Or.inr ⟨fun _ _ => none, fun _ _ => none, [0], _, rfl, rfl, rfl, rfl⟩) (Wb.Run.closed _ _)))
                (Wb.Retry.clean _ rfl rfl) (Wb.Retry.clean _ rfl rfl))
          have hcmd := Command.ran (copyV := Wb.rescueCopy 1 0 0) (copyS := Wb.rescueCopy 1 0 0) (copyR := Wb.rescueCopy 1 0 0) (unpackRoot := rootIn) (epb := 3)
            (v := demoKeep) (cd := imageOf (fullCfg 1) 24 r) (Prod.ext hq hk) rfl ho run
          have e : (if [0].length ≠ sel.nr then some DErr.err else none) = none := if_neg (by rw [hn]; decide)
          rw [e] at hcmd
          replace hcmd : Command _ _ _ rootIn 3 demoKeep _ _ _ Code.ok _ _ := hcmd
          obtain ⟨f1, f2, f3, f4, f5, -, f6, f7⟩ := demoBody_facts
          obtain ⟨q1, q2, -⟩ := restored_writeback Wb.rescueCopy_ok Wb.rescueCopy_ok Wb.rescueCopy_ok (cfg := fullCfg 1) (Or.inl rfl) (by decide) (by decide) (by decide) (by decide)
            f6 rfl f7 hr f1 f2 f4 f3 f5 hcmd
          refine ⟨r, rfl, _, _, _, hcmd, q1 (0, 9, true) (by decide) (fun _ => rfl), fun o h => q2 o fun m hm hd => ?_⟩
          have : m = (0, 9, true) ∨ m = (4, 7, false) := by simpa [demoBody, mapsIn] using hm
          rcases this with rfl | rfl
          · exact fun e => h e.symm
          · exact absurd (hd rfl) (by decide)

end Verif.WbTool
