import Verif.Prop.ThinCheckTool
import Verif.Prop.ThinCheckRefs

/-!
# C47: `thin_check` on undamaged pools

When every tree is readable and well formed, `thin_check` succeeds exactly if the counts recorded on disk are those that the trees imply.
-/

namespace Verif.TChk

open Verif.BT (Blk WSt Tree)
open Verif.SMD (SVal)

/-! ## Specification -/

/-- the parts of a pool without metadata snapshot: top level of the mappings, device details, nodes and leaves of the mapping trees, data space map, metadata space map -/
structure Pool where
  hT : Nat
  tT : Tree Nat hT
  hD : Nat
  tD : Tree DeviceDetail hD
  N : List Nat
  L : List Nat
  droot : SMRoot
  hX : Nat
  tX : Tree SVal hX
  ies : List IndexEntry
  hO : Nat
  tO : Tree SVal hO
  mroot : SMRoot
  hM : Nat
  tM : Tree SVal hM
  mies : List IndexEntry

namespace Pool

/-- device ids and roots of the mapping trees -/
def devs (P : Pool) : List (Nat × Nat) := P.tT.contents P.hT

/-- the roots of the mapping trees -/
def roots (P : Pool) : List Nat := P.devs.map (·.2)

/-- the details of the devices -/
def details (P : Pool) : List (Nat × DeviceDetail) := P.tD.contents P.hD

/-- superblock, device details, top level -/
def top (P : Pool) : List Nat := 0 :: (P.tD.blocks P.hD ++ P.tT.blocks P.hT)

/-- blocks of the data space map -/
def dataSm (P : Pool) : List Nat := P.tX.blocks P.hX ++ (P.ies.map (·.blocknr) ++ P.tO.blocks P.hO)

/-- blocks of the metadata space map -/
def metaSm (P : Pool) : List Nat := P.tM.blocks P.hM ++ (P.mroot.bitmap_root :: P.mies.map (·.blocknr))

/-- how often a metadata block is referenced -/
def metaRefs (P : Pool) (d : TDev) (x : Nat) : Nat :=
  P.top.count x + P.roots.count x + (P.N.map fun y => (kids d.low y).count x).sum + P.dataSm.count x + P.metaSm.count x

/-- how often a data block is mapped by distinct leaves -/
def dataRefs (P : Pool) (d : TDev) (x : Nat) : Nat := (P.L.map fun b => (dataOf d.low b).count x).sum

/-- the pool is on the device, undamaged; no block has two uses (mapping trees may share nodes with each other) -/
structure Intact (P : Pool) (d : TDev) (sb : Thin.Superblock) (unpackRoot : Bytes → Option SMRoot) : Prop where
  sbIs : d.sb = some sb
  snap : sb.metadata_snap = 0
  top : ∃ mem, d.tops = (fun _ b => mem b) ∧ LW.Clean mem d.nr P.hT P.tT
  topBlk : P.tT.blk P.hT = sb.mapping_root
  det : ∃ mem, d.dets = (fun _ b => mem b) ∧ LW.Clean mem d.nr P.hD P.tD
  detBlk : P.tD.blk P.hD = sb.details_root
  lowNr : d.low.nr = d.nr
  sane : Sane d.low
  readAll : (∀ b n, d.low.rd b = some n → d.low.rdl b = some n) ∧ (∀ l i, d.low.many l i = true) ∧ ∀ l, d.low.chunkOk l = true
  low : AllClean d.low P.roots
  nodes : P.N.Nodup ∧ ∀ y, y ∈ P.N ↔ Reach d.low P.roots y
  leaves : P.L.Nodup ∧ ∀ y, y ∈ P.L ↔ y ∈ P.N ∧ ∃ es, d.low.rd y = some (.leaf es)
  small : ∀ b, nEnt d.low b ≤ 255
  few : P.roots.length < 2 ^ 32
  sms : ∃ mem, d.rdn = (fun _ b => mem b) ∧ SMC.IndexTree mem d.nr P.droot.bitmap_root P.ies P.hX P.tX ∧ LW.Clean mem d.nr P.hO P.tO ∧ LW.Clean mem d.nr P.hM P.tM
  droot : unpackRoot sb.data_sm_root = some P.droot
  ovBlk : P.tO.blk P.hO = P.droot.ref_count_root
  mroot : unpackRoot sb.metadata_sm_root = some P.mroot
  movBlk : P.tM.blk P.hM = P.mroot.ref_count_root
  index : d.index P.mroot.bitmap_root = some P.mies
  nodup : (P.top ++ (P.N ++ (P.dataSm ++ P.metaSm))).Nodup
  bound : ∀ x ∈ P.top ++ (P.dataSm ++ P.metaSm), x < d.nr

end Pool

/-- a full check -/
def TOpts.full (o : TOpts) : Prop := o.sbOnly = false ∧ o.skip = false ∧ o.snap = false ∧ o.overMap = none ∧ o.overDet = none

/-! ## Walking unshared trees -/

theorem walk_adds {V : Type} {mem : Nat → Option (Blk V)} {nr h : Nat} {t : Tree V h} (hc : LW.Clean mem nr h t) (st : WSt V) (hnr : st.nr = nr) (hmx : 0 < st.mx)
    (hun : ∀ x ∈ t.blocks h, st.seen x = 0) (vis : List (BT.Event V) → BT.Event V → Bool) (hvis : ∀ l, ∀ e ∈ BT.leafEvents h [0] ⟨none, none⟩ t, vis l e = true) :
    (BT.walk (fun b => decide (b < nr)) (fun _ b => mem b) vis (nr + 1) [0] (t.blk h) st).2 = .ok ∧
    (BT.walk (fun b => decide (b < nr)) (fun _ b => mem b) vis (nr + 1) [0] (t.blk h) st).1.log = st.log ++ BT.leafEvents h [0] ⟨none, none⟩ t ++ [.endWalk] ∧
    (BT.walk (fun b => decide (b < nr)) (fun _ b => mem b) vis (nr + 1) [0] (t.blk h) st).1.seen = (fun x => st.seen x + (t.blocks h).count x) ∧
    (BT.walk (fun b => decide (b < nr)) (fun _ b => mem b) vis (nr + 1) [0] (t.blk h) st).1.nr = st.nr ∧
    (BT.walk (fun b => decide (b < nr)) (fun _ b => mem b) vis (nr + 1) [0] (t.blk h) st).1.mx = st.mx := by
  have hroot : t.blk h < nr := hc.bound _ (blk_mem_blocks t)
  obtain ⟨h1, h2, h3, h4, h5, h6⟩ := BT.walk_counts (fun b => decide (b < nr)) (fun _ b => mem b) vis h t st hmx (nr + 1) (by have := hc.height; omega) [0] hvis
    (by simpa using hroot) hc.stored hc.ordered hc.noEmpty hc.nodup (fun x hx => ⟨by rw [hnr]; exact hc.bound x hx, hun x hx⟩)
  refine ⟨h1, h2, ?_, h5, h6⟩
  funext x
  by_cases hx : x ∈ t.blocks h
  · rw [h4 x hx, hun x hx, hc.nodup.count, if_pos hx]
  · rw [h3 x hx, List.count_eq_zero.mpr hx, Nat.add_zero]

theorem toMap_adds {V : Type} {d : TDev} {mem : Nat → Option (Blk V)} {h : Nat} {t : Tree V h} (hc : LW.Clean mem d.nr h t) (sm : Sm) (hnr : sm.nr = d.nr) (hmx : 0 < sm.mx)
    (hun : ∀ x ∈ t.blocks h, sm.cnt x = 0) :
    toMap d (fun _ b => mem b) (t.blk h) sm = (some (t.contents h), sm.withCounts fun x => sm.cnt x + (t.blocks h).count x) := by
  obtain ⟨h1, h2, h3, -, -⟩ := walk_adds hc (sm.toW) hnr hmx hun (fun _ _ => true) (fun _ _ _ => rfl)
  unfold toMap
  simp only [h1, h2, h3, if_true]
  rw [show (sm.toW (V := V)).log = [] from rfl, List.nil_append, LW.collected_leaves h _ _ t _ [] (by rw [List.nil_append]; exact LW.ordered_sorted h t 0 none hc.ordered)]
  rfl

theorem incEntries_adds : ∀ (ies : List IndexEntry) (st : WSt SVal), 0 < st.mx → (ies.map (·.blocknr)).Nodup → (∀ x ∈ ies.map (·.blocknr), x < st.nr ∧ st.seen x = 0) →
    ∃ st', SMC.incEntries ies st = some st' ∧ st'.seen = (fun x => st.seen x + (ies.map (·.blocknr)).count x) ∧ st'.nr = st.nr ∧ st'.mx = st.mx := by
  intro ies
  induction ies with
  | nil => intro st _ _ _; exact ⟨st, rfl, by funext x; simp, rfl, rfl⟩
  | cons ie ies ih =>
    intro st hm hnd hx
    rw [List.map_cons, List.nodup_cons] at hnd
    have hb := hx ie.blocknr (by simp)
    have hinc : st.smInc ie.blocknr = some (0, { st with seen := fun x => st.seen x + [ie.blocknr].count x }) := by
      unfold WSt.smInc
      rw [if_pos hb.1, if_pos (by omega), hb.2]
      congr 3
      funext x
      by_cases e : x = ie.blocknr
      · rw [if_pos e, e, hb.2]; simp
      · rw [if_neg e, List.count_eq_zero.mpr (by simp [e]), Nat.add_zero]
    obtain ⟨st', h1, h2, h3, h4⟩ := ih { st with seen := fun x => st.seen x + [ie.blocknr].count x } hm hnd.2 (fun x hx' => by
      have := hx x (by simp only [List.map_cons, List.mem_cons]; exact Or.inr hx')
      refine ⟨this.1, ?_⟩
      have hne : x ≠ ie.blocknr := fun e => hnd.1 (by rw [← e]; exact hx')
      simp only
      rw [this.2, List.count_eq_zero.mpr (by simp [hne])])
    unfold SMC.incEntries
    rw [hinc]
    refine ⟨st', h1, ?_, h3, h4⟩
    rw [h2]
    funext x
    simp only [List.map_cons]
    rw [List.count_cons, List.count_cons, List.count_nil]
    omega

/-! ## Up to the mapping trees -/

theorem coreSm_mx {nr n : Nat} (h : n < 2 ^ 32) : n ≤ (coreSm nr n).mx ∧ 0 < (coreSm nr n).mx := by
  show n ≤ (if n ≤ 255 then 255 else if n ≤ 65535 then 65535 else 2 ^ 32 - 1) ∧ 0 < (if n ≤ 255 then 255 else if n ≤ 65535 then 65535 else 2 ^ 32 - 1)
  split
  · omega
  · split <;> omega

/-- the metadata space map after the top level -/
def Pool.sm1 (P : Pool) (d : TDev) : Sm := (coreSm d.nr P.roots.length).withCounts fun x => P.top.count x

theorem sumsTo_zip (roots : List (Nat × Nat)) (devs : List (Nat × DeviceDetail)) (h : roots.map (·.1) = devs.map (·.1)) : (zipThins roots devs).map (·.2.1) = roots.map (·.2) := by
  have hlen : roots.length = devs.length := by
    have := congrArg List.length h
    simpa using this
  unfold zipThins
  rw [List.map_map]
  induction roots generalizing devs with
  | nil => rfl
  | cons r roots ih =>
    cases devs with
    | nil => simp at hlen
    | cons e devs =>
      simp only [List.map_cons, List.cons.injEq] at h
      simp only [List.zip_cons_cons, List.map_cons, Function.comp_apply]
      rw [ih devs h.2 (by simpa using hlen)]

variable {P : Pool} {d : TDev} {sb : Thin.Superblock} {unpackRoot : Bytes → Option SMRoot}

theorem Pool.Intact.parts (I : P.Intact d sb unpackRoot) : P.top.Nodup ∧ P.dataSm.Nodup ∧ P.metaSm.Nodup ∧ (∀ x ∈ P.top, x ∉ P.N ∧ x ∉ P.dataSm ∧ x ∉ P.metaSm) ∧
    (∀ x ∈ P.N, x ∉ P.dataSm ∧ x ∉ P.metaSm) ∧ ∀ x ∈ P.dataSm, x ∉ P.metaSm := by
  obtain ⟨h1, h2, h3⟩ := List.nodup_append.mp I.nodup
  obtain ⟨h4, h5, h6⟩ := List.nodup_append.mp h2
  obtain ⟨h7, h8, h9⟩ := List.nodup_append.mp h5
  refine ⟨h1, h7, h8, ?_, ?_, ?_⟩
  · intro x hx
    exact ⟨fun h => h3 x hx x (by simp [h]) rfl, fun h => h3 x hx x (by simp [h]) rfl, fun h => h3 x hx x (by simp [h]) rfl⟩
  · intro x hx
    exact ⟨fun h => h6 x hx x (by simp [h]) rfl, fun h => h6 x hx x (by simp [h]) rfl⟩
  · intro x hx h
    exact h9 x hx x h rfl

theorem checkSb_start (I : P.Intact d sb unpackRoot) (bot : List Nat → Sm → Sm → Sm × Sm × Option Sums) (w : Wr) {o : TOpts} (ho : o.full) :
    checkSb unpackRoot bot w o d sb = if P.devs.map (·.1) = P.details.map (·.1) then
      checkBottom unpackRoot bot w o d sb (zipThins P.devs P.details) P.roots (some ([], []), P.sm1 d) else (d, .err) := by
  obtain ⟨o1, o2, o3, -, -⟩ := ho
  obtain ⟨mt, et, ct⟩ := I.top
  obtain ⟨md, ed, cd⟩ := I.det
  have hsn : snapOf d sb = none := by unfold snapOf; rw [I.snap]; rfl
  have hcm : createMetaSm d sb none = some (coreSm d.nr P.roots.length) := by
    unfold createMetaSm
    rw [et, ← I.topBlk, toMap_adds ct (restricted d.nr) rfl (by show 0 < 1; omega) (fun _ _ => rfl)]
    simp only [Pool.roots, List.length_map]
    rfl
  have hmx := coreSm_mx (nr := d.nr) I.few
  have h0 : 0 < d.nr := I.bound 0 (by simp [Pool.top])
  have hin : incSb (coreSm d.nr P.roots.length) sb.metadata_snap = some ((coreSm d.nr P.roots.length).withCounts fun x => [0].count x) := by
    unfold incSb
    have : (coreSm d.nr P.roots.length).inc 0 = some ((coreSm d.nr P.roots.length).withCounts fun x => [0].count x) := by
      unfold Sm.inc
      rw [if_pos (show 0 < (coreSm d.nr P.roots.length).nr from h0), if_pos (show (coreSm d.nr P.roots.length).cnt 0 < _ from hmx.2)]
      unfold Sm.withCounts
      congr 2
      funext x
      by_cases e : x = 0
      · subst e; rfl
      · rw [if_neg e, List.count_eq_zero.mpr (by simp [e])]; rfl
    rw [this, I.snap]
    rfl
  obtain ⟨p1, -⟩ := I.parts
  rw [Pool.top, List.nodup_cons, List.nodup_append] at p1
  obtain ⟨q0, q1, q2, q3⟩ := p1
  have hgd : getDevices d sb ((coreSm d.nr P.roots.length).withCounts fun x => [0].count x) = (some (P.details, P.devs), P.sm1 d) := by
    unfold getDevices
    rw [ed, ← I.detBlk, toMap_adds cd ((coreSm d.nr P.roots.length).withCounts fun x => [0].count x) rfl hmx.2 (by
      intro x hx
      refine List.count_eq_zero.mpr fun h => q0 ?_
      rw [List.mem_singleton.mp h] at hx
      simp [hx])]
    simp only
    rw [show (fun x => ((coreSm d.nr P.roots.length).withCounts fun x => [0].count x).cnt x + (P.tD.blocks P.hD).count x) = fun x => [0].count x + (P.tD.blocks P.hD).count x from rfl]
    rw [et, ← I.topBlk, toMap_adds ct (((coreSm d.nr P.roots.length).withCounts fun x => [0].count x).withCounts fun x => [0].count x + (P.tD.blocks P.hD).count x) rfl hmx.2 (by
      intro x hx
      show [0].count x + (P.tD.blocks P.hD).count x = 0
      rw [List.count_eq_zero.mpr fun h => q0 (by rw [List.mem_singleton.mp h] at hx; simp [hx]), List.count_eq_zero.mpr fun h => q3 x h x hx rfl])]
    simp only [Pool.details, Pool.devs]
    refine congrArg (Prod.mk _) ?_
    unfold Pool.sm1 Sm.withCounts
    congr 1
    funext x
    simp only [Pool.top, List.count_cons, List.count_append, List.count_nil]
    omega
  unfold checkSb
  simp only [hsn, o1, o2, o3, Bool.false_and, Bool.false_eq_true, if_false, hcm, hin, thinsOfSb, hgd]
  by_cases e : P.devs.map (·.1) = P.details.map (·.1)
  · rw [if_pos e, if_pos e]
    rfl
  · rw [if_neg e, if_neg e]

/-! ## The mapping trees -/

/-- every device has as many mappings as its details say -/
def Pool.CountsRight (P : Pool) (d : TDev) : Prop :=
  ∀ e ∈ zipThins P.devs P.details, ∀ (h : Nat) (t : Tree Nat h), LW.Clean d.low.rd d.low.nr h t → t.blk h = e.2.1 → (t.contents h).length = e.2.2

/-- the counts the data space map is compared with -/
def Pool.dataExp (P : Pool) (d : TDev) : List Nat :=
  (List.range P.droot.nr_blocks).map fun x => min (createDataSm P.droot P.roots.length).mx (P.dataRefs d x)

theorem checkBottom_pool (I : P.Intact d sb unpackRoot) {o : TOpts} (ho : o.full) (w : Wr) (hids : P.devs.map (·.1) = P.details.map (·.1))
    (hmin : o.ign = true ∨ ∀ y c, y ∈ P.N → c ∈ kids d.low y → MIN_ENTRIES ≤ nEnt d.low c) {fuel : Nat} (hf : d.nr ≤ fuel)
    (bot : List Nat → Sm → Sm → Sm × Sm × Option Sums) (hbot : ∀ roots msm dsm, Bottom d.low o.ign fuel roots msm dsm (bot roots msm dsm)) :
    ∃ msm dsm : Sm, msm.nr = d.nr ∧ 0 < msm.mx ∧ (∀ x, msm.cnt x = P.top.count x + P.roots.count x + (P.N.map fun y => (kids d.low y).count x).sum) ∧
      (List.range dsm.nr).map dsm.cnt = P.dataExp d ∧
      (P.CountsRight d → checkBottom unpackRoot bot w o d sb (zipThins P.devs P.details) P.roots (some ([], []), P.sm1 d) = checkMaps unpackRoot w o d sb msm dsm) ∧
      (¬ P.CountsRight d → checkBottom unpackRoot bot w o d sb (zipThins P.devs P.details) P.roots (some ([], []), P.sm1 d) = (d, .err)) := by
  obtain ⟨-, -, o3, -, -⟩ := ho
  have hz := sumsTo_zip P.devs P.details hids
  have hroots : (zipThins P.devs P.details).map (·.2.1) = P.roots := hz
  obtain ⟨-, -, -, p4, p5, p6⟩ := I.parts
  have hmx := coreSm_mx (nr := d.nr) I.few
  have hall : allRoots P.roots (some (([], []) : Thins × List Nat)) = P.roots := List.append_nil _
  have hb := hbot P.roots (P.sm1 d) (createDataSm P.droot P.roots.length)
  have hdz : ∀ x, (createDataSm P.droot P.roots.length).cnt x = 0 := by
    intro x; unfold createDataSm; split <;> rfl
  have hdn : (createDataSm P.droot P.roots.length).nr = P.droot.nr_blocks := by
    unfold createDataSm; split <;> rfl
  have hex := check_exact I.sane I.readAll.1 I.readAll.2.1 I.readAll.2.2 (zipThins P.devs P.details) (by rw [hroots]; exact I.low) o.ign
    (by rw [hroots]; exact hmin.imp id fun h y c hy hc => h y c ((I.nodes.2 y).mpr hy) hc) I.small fuel (by rw [I.lowNr]; exact hf) (P.sm1 d)
    (createDataSm P.droot P.roots.length) I.lowNr.symm hmx.2 (fun x => by rw [hdz]; exact Nat.zero_le _) P.N P.L I.nodes.1 (by rw [hroots]; exact I.nodes.2) I.leaves.1 I.leaves.2
    (fun b hb => List.count_eq_zero.mpr fun h => (p4 b h).1 hb) (by
      intro _ x
      rw [hroots]
      show P.top.count x + _ + _ ≤ (coreSm d.nr P.roots.length).mx
      by_cases hx : x ∈ P.N
      · rw [List.count_eq_zero.mpr fun h => (p4 x h).1 hx]
        have := refs_le_devices I.low I.nodes.1 I.nodes.2 x
        omega
      · obtain ⟨r1, r2⟩ := refs_out I.nodes.2 hx
        rw [r1, r2]
        have := List.nodup_iff_count.mp I.parts.1 x
        omega) (bot P.roots (P.sm1 d) (createDataSm P.droot P.roots.length)) (by rw [hroots]; exact hb)
  obtain ⟨e1, e2, m, e3, e4⟩ := hex
  obtain ⟨⟨l1, l2, -⟩, ⟨l3, -, -⟩⟩ := hb.like
  refine ⟨(bot P.roots (P.sm1 d) (createDataSm P.droot P.roots.length)).1, (bot P.roots (P.sm1 d) (createDataSm P.droot P.roots.length)).2.1, l1, by rw [l2]; exact hmx.2, ?_, ?_, ?_, ?_⟩
  · intro x
    rw [e1 rfl x, hroots]
    rfl
  · rw [l3, hdn]
    unfold Pool.dataExp
    apply List.map_congr_left
    intro x hx
    rw [List.mem_range] at hx
    rw [e2 x, hdn, if_pos hx, hdz, Nat.zero_add]
    rfl
  · intro hc
    unfold checkBottom
    simp only [I.droot, I.mroot, Option.isNone_some, Bool.false_eq_true, if_false, o3, hall, e3]
    rw [e4.mpr hc]
    simp [checkMapped]
  · intro hc
    unfold checkBottom
    simp only [I.droot, I.mroot, Option.isNone_some, Bool.false_eq_true, if_false, o3, hall, e3]
    cases hcm : checkMapped m (zipThins P.devs P.details)
    · rfl
    · exact absurd (e4.mp hcm) hc

/-! ## The space maps -/

/-- the counts the metadata space map is compared with -/
def Pool.metaExp (P : Pool) (d : TDev) : List Nat := (List.range d.nr).map (P.metaRefs d)

/-- every overflow entry of both space maps is right -/
def Pool.OvRight (P : Pool) (d : TDev) : Prop :=
  (∀ e ∈ P.tO.contents P.hO, SMC.OvOk (P.dataExp d) e) ∧ ∀ e ∈ P.tM.contents P.hM, SMC.OvOk (P.metaExp d) e

theorem checkDisk_pool (I : P.Intact d sb unpackRoot) {exp : List Nat} (st : WSt SVal) (hnr : st.nr = d.nr) (hmx : 0 < st.mx) (hun : ∀ x ∈ P.dataSm, st.seen x = 0) :
    ((∀ e ∈ P.tO.contents P.hO, SMC.OvOk exp e) → ∃ st' : WSt SVal, st'.nr = st.nr ∧ st'.mx = st.mx ∧ st'.seen = (fun x => st.seen x + P.dataSm.count x) ∧
      SMC.checkDisk (fun b => decide (b < d.nr)) d.rdn d.bm (d.nr + 1) P.droot exp st = (SMC.checkLow d.bm exp P.ies).map fun l => (l, st')) ∧
    (¬ (∀ e ∈ P.tO.contents P.hO, SMC.OvOk exp e) → SMC.checkDisk (fun b => decide (b < d.nr)) d.rdn d.bm (d.nr + 1) P.droot exp st = none) := by
  obtain ⟨mem, er, hX, hO, -⟩ := I.sms
  obtain ⟨-, p2, -⟩ := I.parts
  unfold Pool.dataSm at p2 hun
  obtain ⟨q1, q2, q3⟩ := List.nodup_append.mp p2
  obtain ⟨q4, q5, q6⟩ := List.nodup_append.mp q2
  rw [er]
  obtain ⟨a1, a2, a3, a4, a5⟩ := walk_adds hX.clean { st with log := [], fails := fun _ => false } hnr hmx (fun x hx => hun x (by simp [hx])) (fun _ _ => true) (fun _ _ _ => rfl)
  rw [hX.blk] at a1 a2 a3 a4 a5
  obtain ⟨s2, b1, b2, b3, b4⟩ := incEntries_adds P.ies
    (BT.walk (fun b => decide (b < d.nr)) (fun _ b => mem b) (fun _ _ => true) (d.nr + 1) [0] P.droot.bitmap_root { st with log := [], fails := fun _ => false }).1
    (by rw [a5]; exact hmx) q4 (by
      intro x hx
      refine ⟨by rw [a4, hnr]; exact I.bound x (by simp only [List.mem_append, Pool.dataSm]; exact Or.inr (Or.inl (Or.inr (Or.inl hx)))), ?_⟩
      rw [a3]
      simp only
      rw [hun x (by simp only [List.mem_append]; exact Or.inr (Or.inl hx)), List.count_eq_zero.mpr fun h => q3 x h x (by simp only [List.mem_append]; exact Or.inl hx) rfl])
  have hg : SMC.gatherDisk (fun b => decide (b < d.nr)) (fun _ b => mem b) (d.nr + 1) P.droot.bitmap_root st = some (P.ies, s2) := by
    unfold SMC.gatherDisk
    simp only [a1, if_true, a2]
    rw [List.nil_append, LW.collected_leaves P.hX _ _ P.tX _ [] (by rw [List.nil_append]; exact LW.ordered_sorted P.hX P.tX 0 none hX.clean.ordered), List.nil_append, hX.contents]
    rw [show LW.collected [BT.Event.endWalk] (P.ies.zipIdx.map fun e => (e.2, SVal.ie e.1)) = P.ies.zipIdx.map fun e => (e.2, SVal.ie e.1) from rfl, SMC.indexValues_contents, b1]
    rfl
  have hs2 : ∀ x ∈ P.tO.blocks P.hO, s2.seen x = 0 := by
    intro x hx
    rw [b2, a3]
    simp only
    rw [hun x (by simp [hx]), List.count_eq_zero.mpr fun h => q3 x h x (by simp [hx]) rfl, List.count_eq_zero.mpr fun h => q6 x h x hx rfl]
  unfold SMC.checkDisk
  simp only [hg]
  have hn2 : s2.nr = d.nr := by rw [b3, a4]; exact hnr
  have hm2 : 0 < s2.mx := by rw [b4, a5]; exact hmx
  constructor
  · intro hov
    obtain ⟨c1, c2, c3, c4, c5⟩ := walk_adds hO { s2 with log := [], fails := fun _ => false } hn2 hm2 hs2 (SMC.overflowVis exp) (by
      intro l ev hev
      obtain ⟨p, kr, es, rfl, hsub⟩ := SMC.leafEvents_entries P.hO _ _ P.tO ev hev
      exact SMC.overflowOk_iff.mpr fun e he => hov e (hsub e he))
    rw [I.ovBlk] at c1 c2 c3 c4 c5
    rw [if_pos c1]
    refine ⟨_, ?_, ?_, ?_, rfl⟩
    · rw [c4]; simp only; rw [b3, a4]
    · rw [c5]; simp only; rw [b4, a5]
    · rw [c3]
      funext x
      simp only
      rw [b2, a3]
      simp only [Pool.dataSm, List.count_append]
      omega
  · intro hov
    rw [if_neg]
    intro hw
    rw [← I.ovBlk] at hw
    exact hov (SMC.overflow_sound (s := { s2 with log := [], fails := fun _ => false }) hm2 hO.stored (fun b hb => ⟨by simp only; rw [hn2]; exact hO.bound b hb, hs2 b hb⟩) hw)

theorem checkMetaSm_pool (I : P.Intact d sb unpackRoot) (st : WSt SVal) (hnr : st.nr = d.nr) (hmx : 0 < st.mx)
    (hseen : ∀ x, st.seen x = P.top.count x + P.roots.count x + (P.N.map fun y => (kids d.low y).count x).sum + P.dataSm.count x) :
    ((∀ e ∈ P.tM.contents P.hM, SMC.OvOk (P.metaExp d) e) → checkMetaSm d P.mroot st = (SMC.checkLow d.bm (P.metaExp d) P.mies).map fun l => (l, P.metaExp d)) ∧
    (¬ (∀ e ∈ P.tM.contents P.hM, SMC.OvOk (P.metaExp d) e) → checkMetaSm d P.mroot st = none) := by
  obtain ⟨mem, er, -, -, hM⟩ := I.sms
  obtain ⟨-, -, p3, p4, p5, p6⟩ := I.parts
  have hun : ∀ x ∈ P.metaSm, st.seen x = 0 := by
    intro x hx
    have hN : x ∉ P.N := fun h => (p5 x h).2 hx
    obtain ⟨r1, r2⟩ := refs_out I.nodes.2 hN
    rw [hseen, r1, r2, List.count_eq_zero.mpr fun h => (p4 x h).2.2 hx, List.count_eq_zero.mpr fun h => p6 x h hx]
  have p3' := p3
  unfold Pool.metaSm at p3
  obtain ⟨q1, q2, q3⟩ := List.nodup_append.mp p3
  rw [List.nodup_cons] at q2
  obtain ⟨a1, a2, a3, a4, a5⟩ := walk_adds hM { st with log := [], fails := fun _ => false } hnr hmx (fun x hx => hun x (by simp [Pool.metaSm, hx])) (fun _ _ => true) (fun _ _ _ => rfl)
  rw [I.movBlk] at a1 a2 a3 a4 a5
  have hinc : (BT.walk (fun b => decide (b < d.nr)) (fun _ b => mem b) (fun _ _ => true) (d.nr + 1) [0] P.mroot.ref_count_root { st with log := [], fails := fun _ => false }).1.smInc P.mroot.bitmap_root =
      some (0, { (BT.walk (fun b => decide (b < d.nr)) (fun _ b => mem b) (fun _ _ => true) (d.nr + 1) [0] P.mroot.ref_count_root { st with log := [], fails := fun _ => false }).1 with
        seen := fun x => st.seen x + (P.tM.blocks P.hM).count x + [P.mroot.bitmap_root].count x }) := by
    have hz : st.seen P.mroot.bitmap_root + (P.tM.blocks P.hM).count P.mroot.bitmap_root = 0 := by
      rw [hun _ (by simp [Pool.metaSm]), List.count_eq_zero.mpr fun h => q3 _ h _ (by simp) rfl]
    unfold WSt.smInc
    rw [if_pos (by rw [a4]; simp only; rw [hnr]; exact I.bound _ (by simp [Pool.metaSm])), a3]
    simp only
    rw [if_pos (by rw [a5, hz]; exact hmx)]
    rw [hz]
    congr 3
    funext x
    by_cases e : x = P.mroot.bitmap_root
    · rw [if_pos e, e, hz]; simp
    · rw [if_neg e, List.count_eq_zero.mpr (by simp [e] : x ∉ [P.mroot.bitmap_root]), Nat.add_zero]
  obtain ⟨s2, b1, b2, b3, b4⟩ := incEntries_adds P.mies { (BT.walk (fun b => decide (b < d.nr)) (fun _ b => mem b) (fun _ _ => true) (d.nr + 1) [0] P.mroot.ref_count_root { st with log := [], fails := fun _ => false }).1 with
        seen := fun x => st.seen x + (P.tM.blocks P.hM).count x + [P.mroot.bitmap_root].count x } (by simp only; rw [a5]; exact hmx) q2.2 (by
      intro x hx
      refine ⟨?_, ?_⟩
      · simp only; rw [a4]; simp only; rw [hnr]; exact I.bound x (by simp only [List.mem_append, Pool.metaSm, List.mem_cons]; exact Or.inr (Or.inr (Or.inr (Or.inr hx))))
      · simp only
        rw [hun x (by simp only [List.mem_append, Pool.metaSm, List.mem_cons]; exact Or.inr (Or.inr hx)), List.count_eq_zero.mpr fun h => q3 x h x (List.mem_cons_of_mem _ hx) rfl,
          List.count_eq_zero.mpr fun h => q2.1 (by rw [← List.mem_singleton.mp h]; exact hx)])
  have hexp : (List.range d.nr).map s2.seen = P.metaExp d := by
    unfold Pool.metaExp
    congr 1
    rw [b2]
    funext x
    simp only [Pool.metaRefs, Pool.metaSm, hseen]
    rw [List.count_append, List.count_cons, List.count_cons, List.count_nil]
    omega
  have hu : checkMetaSm d P.mroot st = (SMC.checkMeta (fun b => decide (b < d.nr)) d.rdn d.bm (d.nr + 1) d.nr P.mroot (P.metaExp d) P.mies).map fun l => (l, P.metaExp d) := by
    unfold checkMetaSm
    rw [er]
    simp only [a1, if_true, I.index, hinc, b1, hexp]
  rw [hu]
  unfold SMC.checkMeta
  simp only
  constructor
  · intro hov
    rw [er, ← I.movBlk, if_pos (SMC.overflow_complete (s := WSt.fresh d.nr 1 true) Nat.one_pos hM (by have := hM.height; omega) (fun b hb => ⟨hM.bound b hb, rfl⟩) hov
      (by simpa using hM.bound _ (blk_mem_blocks P.tM)))]
  · intro hov
    rw [if_neg]
    · rfl
    · intro hw
      rw [er, ← I.movBlk] at hw
      exact hov (SMC.overflow_sound (s := WSt.fresh d.nr 1 true) Nat.one_pos hM.stored (fun b hb => ⟨hM.bound b hb, rfl⟩) hw)

theorem checkMaps_pool (I : P.Intact d sb unpackRoot) (w : Wr) (o : TOpts) {msm dsm : Sm} (hnr : msm.nr = d.nr) (hmx : 0 < msm.mx)
    (hm : ∀ x, msm.cnt x = P.top.count x + P.roots.count x + (P.N.map fun y => (kids d.low y).count x).sum) (hd : (List.range dsm.nr).map dsm.cnt = P.dataExp d) :
    (∀ dl ml, P.OvRight d → SMC.checkLow d.bm (P.dataExp d) P.ies = some dl → SMC.checkLow d.bm (P.metaExp d) P.mies = some ml →
      checkMaps unpackRoot w o d sb msm dsm = finish w o d dl ml (P.dataExp d) (P.metaExp d)) ∧
    ((checkMaps unpackRoot w o d sb msm dsm).2 = .ok → P.OvRight d ∧ ∃ dl ml, SMC.checkLow d.bm (P.dataExp d) P.ies = some dl ∧ SMC.checkLow d.bm (P.metaExp d) P.mies = some ml) := by
  obtain ⟨-, -, -, p4, p5, p6⟩ := I.parts
  obtain ⟨d1, d2⟩ := checkDisk_pool I (exp := P.dataExp d) msm.toW hnr hmx (by
    intro x hx
    show msm.cnt x = 0
    have hN : x ∉ P.N := fun h => (p5 x h).1 hx
    obtain ⟨r1, r2⟩ := refs_out I.nodes.2 hN
    rw [hm, r1, r2, List.count_eq_zero.mpr fun h => (p4 x h).2.1 hx])
  have hmeta : ∀ st' : WSt SVal, st'.nr = (msm.toW (V := SVal)).nr → st'.mx = (msm.toW (V := SVal)).mx → st'.seen = (fun x => (msm.toW (V := SVal)).seen x + P.dataSm.count x) → _ :=
    fun st' h1 h2 h3 => checkMetaSm_pool I st' (h1.trans hnr) (by rw [h2]; exact hmx) (fun x => by rw [h3]; simp only; rw [show (msm.toW (V := SVal)).seen x = msm.cnt x from rfl, hm x])
  constructor
  · intro dl ml hov hdl hml
    obtain ⟨st', s1, s2, s3, s4⟩ := d1 hov.1
    obtain ⟨m1, -⟩ := hmeta st' s1 s2 s3
    unfold checkMaps
    simp only [I.droot, hd, s4, hdl, Option.map_some, I.mroot, m1 hov.2, hml]
  · intro hok
    unfold checkMaps at hok
    simp only [I.droot, hd] at hok
    by_cases hov : ∀ e ∈ P.tO.contents P.hO, SMC.OvOk (P.dataExp d) e
    · obtain ⟨st', s1, s2, s3, s4⟩ := d1 hov
      rw [s4] at hok
      cases hdl : SMC.checkLow d.bm (P.dataExp d) P.ies with
      | none => rw [hdl] at hok; cases hok
      | some dl =>
        simp only [hdl, Option.map_some, I.mroot] at hok
        obtain ⟨m1, m2⟩ := hmeta st' s1 s2 s3
        by_cases hmv : ∀ e ∈ P.tM.contents P.hM, SMC.OvOk (P.metaExp d) e
        · rw [m1 hmv] at hok
          cases hml : SMC.checkLow d.bm (P.metaExp d) P.mies with
          | none => rw [hml] at hok; cases hok
          | some ml => exact ⟨⟨hov, hmv⟩, dl, ml, rfl, rfl⟩
        · rw [m2 hmv] at hok; cases hok
    · rw [d2 hov] at hok; cases hok

/-! ## C47: the whole tool -/

theorem check_eq_sb (I : P.Intact d sb unpackRoot) (bot : List Nat → Sm → Sm → Sm × Sm × Option Sums) (w : Wr) {o : TOpts} (ho : o.full) :
    check unpackRoot bot w o d = checkSb unpackRoot bot w o d sb := by
  obtain ⟨-, -, o3, o4, o5⟩ := ho
  unfold check
  simp only [o3, o4, o5, Option.isSome_none, Bool.or_self, Bool.and_false, Bool.false_eq_true, if_false, I.sbIs, Option.getD_none]

/-- what `thin_check` does to an undamaged pool -/
theorem check_pool (I : P.Intact d sb unpackRoot) {o : TOpts} (ho : o.full) (w : Wr)
    (hmin : o.ign = true ∨ ∀ y c, y ∈ P.N → c ∈ kids d.low y → MIN_ENTRIES ≤ nEnt d.low c) {fuel : Nat} (hf : d.nr ≤ fuel)
    (bot : List Nat → Sm → Sm → Sm × Sm × Option Sums) (hbot : ∀ roots msm dsm, Bottom d.low o.ign fuel roots msm dsm (bot roots msm dsm)) :
    (∀ dl ml, P.devs.map (·.1) = P.details.map (·.1) → P.CountsRight d → P.OvRight d → SMC.checkLow d.bm (P.dataExp d) P.ies = some dl →
      SMC.checkLow d.bm (P.metaExp d) P.mies = some ml → check unpackRoot bot w o d = finish w o d dl ml (P.dataExp d) (P.metaExp d)) ∧
    ((check unpackRoot bot w o d).2 = .ok → P.devs.map (·.1) = P.details.map (·.1) ∧ P.CountsRight d ∧ P.OvRight d ∧
      ∃ dl ml, SMC.checkLow d.bm (P.dataExp d) P.ies = some dl ∧ SMC.checkLow d.bm (P.metaExp d) P.mies = some ml) := by
  rw [check_eq_sb I bot w ho, checkSb_start I bot w ho]
  constructor
  · intro dl ml hids hc hov hdl hml
    rw [if_pos hids]
    obtain ⟨msm, dsm, h1, h2, h3, h4, h5, -⟩ := checkBottom_pool I ho w hids hmin hf bot hbot
    rw [h5 hc]
    exact (checkMaps_pool I w o h1 h2 h3 h4).1 dl ml hov hdl hml
  · intro hok
    by_cases hids : P.devs.map (·.1) = P.details.map (·.1)
    · rw [if_pos hids] at hok
      obtain ⟨msm, dsm, h1, h2, h3, h4, h5, h6⟩ := checkBottom_pool I ho w hids hmin hf bot hbot
      by_cases hc : P.CountsRight d
      · rw [h5 hc] at hok
        exact ⟨hids, hc, (checkMaps_pool I w o h1 h2 h3 h4).2 hok⟩
      · rw [h6 hc] at hok; cases hok
    · rw [if_neg hids] at hok; cases hok

/-- **C47, soundness for undamaged pools.**  If `thin_check` succeeds and every tree is readable and well formed (mapping trees may share nodes), then details and mappings are of the
same devices, every device has as many mappings as its details say, and the counts of both space maps are those implied by the trees, but for leaked blocks, whose bitmaps are listed
in `dl` and `ml`; these have been repaired, if that was asked for, and otherwise there are none unless non-fatal errors are ignored.  Counts of data blocks are checked up to the limit
of the counters only (`check_twice_refuted`). -/
theorem check_pool_sound {epb : Nat} (he : 0 < epb) (hrd : SMC.Entries epb d.bm) (I : P.Intact d sb unpackRoot) {o : TOpts} (ho : o.full) (w : Wr)
    (hmin : o.ign = true ∨ ∀ y c, y ∈ P.N → c ∈ kids d.low y → MIN_ENTRIES ≤ nEnt d.low c) {fuel : Nat} (hf : d.nr ≤ fuel)
    (bot : List Nat → Sm → Sm → Sm × Sm × Option Sums) (hbot : ∀ roots msm dsm, Bottom d.low o.ign fuel roots msm dsm (bot roots msm dsm))
    (hok : (check unpackRoot bot w o d).2 = .ok) :
    P.devs.map (·.1) = P.details.map (·.1) ∧ P.CountsRight d ∧ ∃ dl ml,
      SMC.AgreeBut epb d.bm P.ies (P.tO.contents P.hO) (P.dataExp d) dl ∧ SMC.AgreeBut epb d.bm P.mies (P.tM.contents P.hM) (P.metaExp d) ml ∧
      ((dl ≠ [] ∨ ml ≠ []) → (o.repair || o.clear) = true ∨ o.ign = true) ∧
      ((o.repair || o.clear) = true → ∃ bm, (if dl = [] then bm = d.bm else (∀ i, i < dl.length → w.data i = true) ∧ SMC.repair w.data d.bm (P.dataExp d) dl = some bm) ∧
        (if ml = [] then (check unpackRoot bot w o d).1.bm = bm else
          (∀ i, i < ml.length → w.metad i = true) ∧ SMC.repair w.metad bm (P.metaExp d) ml = some (check unpackRoot bot w o d).1.bm)) := by
  obtain ⟨c1, c2⟩ := check_pool I ho w hmin hf bot hbot
  obtain ⟨g1, g2, g3, dl, ml, g4, g5⟩ := c2 hok
  have heq := c1 dl ml g1 g2 g3 g4 g5
  rw [heq] at hok ⊢
  refine ⟨g1, g2, dl, ml, SMC.agree_of he hrd g4 g3.1, SMC.agree_of he hrd g5 g3.2, ?_, ?_⟩
  · intro hne
    cases hf' : (o.repair || o.clear)
    · right
      cases hi : o.ign
      · unfold finish repairStep at hok
        simp only [hf', hi, Bool.false_eq_true, if_false] at hok
        cases hdl : dl.isEmpty
        · simp [hdl] at hok
        · simp only [hdl, if_true] at hok
          cases hml : ml.isEmpty
          · simp [hml] at hok
          · rw [List.isEmpty_iff] at hdl hml
            rcases hne with h | h
            · exact absurd hdl h
            · exact absurd hml h
      · rfl
    · exact Or.inl rfl
  · intro hfx
    obtain ⟨-, -, -, -, -, r6⟩ := repairStep_spec w.data o d dl (P.dataExp d)
    unfold finish at hok ⊢
    have hstay : dl = [] → repairStep w.data o d dl (P.dataExp d) = (d, .ok) := by
      rintro rfl; unfold repairStep; rfl
    cases h1 : repairStep w.data o d dl (P.dataExp d) with
    | mk d1 e1 =>
      rw [h1] at hok r6
      cases e1 with
      | err => cases hok
      | crash => cases hok
      | ok =>
        simp only at hok r6 ⊢
        obtain ⟨-, -, -, -, -, t6⟩ := repairStep_spec w.metad o d1 ml (P.metaExp d)
        have hstay2 : ml = [] → repairStep w.metad o d1 ml (P.metaExp d) = (d1, .ok) := by
          rintro rfl; unfold repairStep; rfl
        cases h2 : repairStep w.metad o d1 ml (P.metaExp d) with
        | mk d2 e2 =>
          rw [h2] at hok t6
          cases e2 with
          | err => cases hok
          | crash => cases hok
          | ok =>
            simp only [hfx, if_true] at hok t6 ⊢
            have hbm : (clearFlag w true d2).1.bm = d2.bm := (clearFlag_spec w true d2).2.1
            rw [hbm]
            refine ⟨d1.bm, ?_, ?_⟩
            · by_cases e : dl = []
              · rw [if_pos e]
                have := hstay e
                rw [h1] at this
                cases this
                rfl
              · rw [if_neg e]
                exact r6 trivial e hfx
            · by_cases e : ml = []
              · rw [if_pos e]
                have := hstay2 e
                rw [h2] at this
                cases this
                rfl
              · rw [if_neg e]
                exact t6 trivial e trivial

/-- the space map on disk has exactly these counts -/
structure DiskRight (epb : Nat) (bm : Nat → Option (Bool × List BE)) (ies : List IndexEntry) (ov : List (Nat × SVal)) (nr : Nat) (refs : Nat → Nat) : Prop where
  read : ∀ ie ∈ ies, ∃ es, bm ie.blocknr = some (true, es)
  small : ∀ b, b < nr → refs b < 3 → SMC.EntryAt epb bm (ies.map (·.blocknr)) b (.small (refs b))
  big : ∀ b, b < nr → 3 ≤ refs b → SMC.EntryAt epb bm (ies.map (·.blocknr)) b .overflow
  ov : ∀ e ∈ ov, e.1 < nr ∧ e.2 = .rc (refs e.1)

theorem DiskRight.low {epb : Nat} (he : 0 < epb) {bm : Nat → Option (Bool × List BE)} (hrows : ∀ loc tag es, bm loc = some (tag, es) → es.length = epb)
    {ies : List IndexEntry} {ov : List (Nat × SVal)} {nr : Nat} {refs : Nat → Nat} (h : DiskRight epb bm ies ov nr refs) :
    SMC.checkLow bm ((List.range nr).map refs) ies = some [] ∧ ∀ e ∈ ov, SMC.OvOk ((List.range nr).map refs) e := by
  have hget : ∀ (b c : Nat), ((List.range nr).map refs)[b]? = some c → b < nr ∧ c = refs b := by
    intro b c hbc
    have hb : b < nr := by
      have := (List.getElem?_eq_some_iff.mp hbc).1
      simpa using this
    rw [List.getElem?_map, List.getElem?_range hb] at hbc
    exact ⟨hb, (Option.some.inj hbc).symm⟩
  constructor
  · refine SMC.checkLow_complete he hrows h.read ?_ ?_
    · intro b c hbc h3
      obtain ⟨hb, rfl⟩ := hget b c hbc
      exact h.small b hb h3
    · intro b c hbc h3
      obtain ⟨hb, rfl⟩ := hget b c hbc
      exact h.big b hb h3
  · intro e hm
    obtain ⟨h1, h2⟩ := h.ov e hm
    exact ⟨refs e.1, h2, by rw [List.getElem?_map, List.getElem?_range h1]; rfl⟩

/-- **C47, no false alarms.**  An undamaged pool in which details and mappings are of the same devices, every device has as many mappings as its details say and maps no data block
twice, and both space maps hold the counts that the trees imply, passes; nothing is written but the cleared `needs_check` flag, if that was asked for. -/
theorem check_pool_complete {epb : Nat} (he : 0 < epb) (hrows : ∀ loc tag es, d.bm loc = some (tag, es) → es.length = epb) (I : P.Intact d sb unpackRoot) {o : TOpts} (ho : o.full) (w : Wr)
    (hmin : o.ign = true ∨ ∀ y c, y ∈ P.N → c ∈ kids d.low y → MIN_ENTRIES ≤ nEnt d.low c) {fuel : Nat} (hf : d.nr ≤ fuel)
    (bot : List Nat → Sm → Sm → Sm × Sm × Option Sums) (hbot : ∀ roots msm dsm, Bottom d.low o.ign fuel roots msm dsm (bot roots msm dsm))
    (hids : P.devs.map (·.1) = P.details.map (·.1)) (hcounts : P.CountsRight d)
    (hone : ∀ r ∈ P.roots, ∀ (h : Nat) (t : Tree Nat h), LW.Clean d.low.rd d.low.nr h t → t.blk h = r → (treeData t).Nodup)
    (hdata : DiskRight epb d.bm P.ies (P.tO.contents P.hO) P.droot.nr_blocks (P.dataRefs d))
    (hmeta : DiskRight epb d.bm P.mies (P.tM.contents P.hM) d.nr (P.metaRefs d)) :
    check unpackRoot bot w o d = if o.repair || o.clear then clearFlag w true d else (d, .ok) := by
  have hexp : P.dataExp d = (List.range P.droot.nr_blocks).map (P.dataRefs d) := by
    unfold Pool.dataExp
    apply List.map_congr_left
    intro x _
    have h1 : P.dataRefs d x ≤ P.roots.length := data_le_devices I.low hone I.leaves.1 (fun y hy => (I.nodes.2 y).mp ((I.leaves.2 y).mp hy).1) x
    have h2 : P.roots.length ≤ (createDataSm P.droot P.roots.length).mx := by
      unfold createDataSm
      split
      · rename_i h; exact h
      · exact (coreSm_mx I.few).1
    exact Nat.min_eq_right (Nat.le_trans h1 h2)
  obtain ⟨d1, d2⟩ := hdata.low he hrows
  obtain ⟨m1, m2⟩ := hmeta.low he hrows
  rw [(check_pool I ho w hmin hf bot hbot).1 [] [] hids hcounts ⟨by rw [hexp]; exact d2, m2⟩ (by rw [hexp]; exact d1) m1]
  unfold finish repairStep
  simp only [List.isEmpty_nil, if_true]

end Verif.TChk
