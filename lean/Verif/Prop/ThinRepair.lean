import Verif.Model.ThinRepair
import Verif.Prop.ThinDump
import Verif.Prop.RepairPartial
import Verif.Prop.RepairSb
import Verif.Prop.ThinRestoreCheck

/-!
# C65: `thin_repair` as a whole

`Pool` describes a pool in the blocks of a device; what `thin_repair` writes to the output is compared with it.
-/

namespace Verif.TRep

open Verif.BT (Tree Blk)
open Verif.Rst
open Verif.Rep (Raw ThinSb btOf rd64 rdDet Found Overrides)
open Verif.TDump (Dev MEntry optimise dumpMetadata toDev Metadata)
open Verif.LW (Clean)

/-! ## Specification -/

/-- a device of a pool: its id, its details and its tree of mappings -/
structure PDev where
  id : Nat
  det : DeviceDetail
  h : Nat
  t : Tree Nat h

/-- the mappings of a device: thin block, data block and time -/
def PDev.maps (d : PDev) : List (Nat × Val) := (d.t.contents d.h).map fun e => (e.1, .bt (btOf e.2).block (btOf e.2).time)

/-- the details of a device as a document has them -/
def docDetail (d : DeviceDetail) : Detail := { mapped := d.mapped_blocks, transaction := d.transaction_id, creation := d.creation_time, snap := d.snapshotted_time }

/-- a device as it appears in a document: its id, its details and its mappings -/
def PDev.means (d : PDev) : DevIR × List (Nat × Val) := (⟨d.id, docDetail d.det⟩, d.maps)

/-- the mapping tree of a device is clean, and strict readers accept all of its nodes -/
structure PDev.Ok (rd : Nat → Option Raw) (fine : Bool → Nat → Bool) (nr : Nat) (d : PDev) : Prop where
  id : d.id < 2 ^ 32
  clean : Clean (rd64 rd true) nr d.h d.t
  fine : d.t.Stored (strict fine (rd64 rd true)) true d.h

/-- Devices: a clean tree of ids and roots at the given root, and a clean mapping tree for each of them. -/
structure Tops (rd : Nat → Option Raw) (fine : Bool → Nat → Bool) (nr mappingRoot : Nat) (devs : List PDev) : Prop where
  sorted : devs.Pairwise fun a b => a.id < b.id
  top : ∃ (hm : Nat) (tm : Tree Nat hm), Clean (rd64 rd true) nr hm tm ∧ tm.blk hm = mappingRoot ∧ tm.contents hm = devs.map fun d => (d.id, d.t.blk d.h)
  dev : ∀ d ∈ devs, d.Ok rd fine nr

/-- A pool: devices and a clean tree with the details of each. -/
structure Pool (rd : Nat → Option Raw) (fine : Bool → Nat → Bool) (nr mappingRoot detailsRoot : Nat) (devs : List PDev) : Prop extends Tops rd fine nr mappingRoot devs where
  details : ∃ (hd : Nat) (td : Tree DeviceDetail hd), Clean (rdDet rd true) nr hd td ∧ td.blk hd = detailsRoot ∧ td.contents hd = devs.map fun d => (d.id, d.det)

/-- What the search for roots needs to recognise devices: there is one, every non-empty leaf of mappings maps a data block other than 0, and the root is not referenced by a
well-formed node. -/
structure RecTops (rd : Nat → Option Raw) (nr mappingRoot : Nat) (devs : List PDev) : Prop where
  some : devs ≠ []
  maps : ∀ d ∈ devs, ∀ l ∈ Bld.leavesOf d.h d.t, l.2 = [] ∨ ∃ e ∈ l.2, (btOf e.2).block ≠ 0
  mroot : Rep.IsRoot rd nr mappingRoot

/-- The same for a pool: the numbers of mappings in the details add up, and their root is not referenced either. -/
structure Recognisable (rd : Nat → Option Raw) (nr mappingRoot detailsRoot : Nat) (devs : List PDev) : Prop extends RecTops rd nr mappingRoot devs where
  count : (devs.map fun d => d.maps.length).sum = (devs.map fun d => d.det.mapped_blocks).sum
  droot : Rep.IsRoot rd nr detailsRoot

/-- What is on a device after a repair: metadata (as any tool reads it) of exactly these devices, in a superblock with this time,
transaction and block size and this number of data blocks. -/
def Holds (img : Image) (sb : SbIR) (devices : List (DevIR × List (Nat × Val))) : Prop :=
  img.sb.time = sb.time ∧ img.sb.transaction_id = sb.transaction ∧ img.sb.data_block_size = sb.blockSize ∧ Rep.refNr img.sb = some sb.nrData ∧
  ∃ devs : List DevT, Metadata img.nodes img.nr img.sb.mapping_root img.sb.details_root devs ∧ (devs.map DevT.means).Perm devices

/-- A full `thin_check` of a device with this content passes exactly if every one of these devices has as many mappings as its `mapped_blocks` says (if the values have room in
the metadata and no device maps a data block twice). -/
def Passes (epb n : Nat) (img : Image) (devices : List (DevIR × List (Nat × Val))) : Prop :=
  n ≤ 2 ^ 32 → Fits devices → MapsOnce devices → ∀ (d : TChk.TDev), Shows epb d img → ∀ (o : TChk.TOpts), o.full → ∀ (w : TChk.Wr) (fuel : Nat), d.nr ≤ fuel →
    ∀ (bot : List Nat → TChk.Sm → TChk.Sm → TChk.Sm × TChk.Sm × Option TChk.Sums), (∀ roots msm dsm, TChk.Bottom d.low o.ign fuel roots msm dsm (bot roots msm dsm)) →
    ((TChk.check CacheM.rootIn bot w o d).2 = .ok ↔ MappedRight devices)

/-- the output of a repair -/
def Output (epb n : Nat) (img : Image) (sb : SbIR) (devices : List (DevIR × List (Nat × Val))) : Prop := Holds img sb devices ∧ Passes epb n img devices

/-! ## The dump -/

variable {rd : Nat → Option Raw} {fine : Bool → Nat → Bool} {nr : Nat}

/-- the device in the model of the dump -/
def PDev.tree (d : PDev) : DevT := ⟨d.id, toDetail d.det, d.h, Tree.map (fun v => .bt (btOf v).block (btOf v).time) d.h d.t⟩

theorem tree_means (d : PDev) : d.tree.means = d.means := by
  unfold DevT.means PDev.tree PDev.means PDev.maps
  simp only [BT.Tree.map_contents]
  rfl

theorem mapNodes_rd64 (b : Nat) : mapNodes rd b = (rd64 rd true b).map (Blk.map fun v => .bt (btOf v).block (btOf v).time) := by
  unfold mapNodes rd64
  cases rd b with
  | none => rfl
  | some r => cases r <;> rfl

theorem strict_stored {V W : Type} (f : V → W) {fine : Bool → Nat → Bool} {mem : Nat → Option (Blk V)} {mem' : Nat → Option (Blk W)} (hm : ∀ b, mem' b = (mem b).map (Blk.map f)) :
    ∀ (h : Nat) (t : Tree V h) (r : Bool), t.Stored (strict fine mem) r h → (Tree.map f h t).Stored (strict fine mem') r h := by
  have hs : ∀ r b nd, strict fine mem r b = some nd → strict fine mem' r b = some (nd.map f) := by
    intro r b nd h
    unfold strict at *
    by_cases hf : fine r b = true
    · rw [if_pos hf] at h ⊢; rw [hm, h]; rfl
    · rw [if_neg hf] at h; cases h
  intro h
  induction h with
  | zero => intro t r h; exact hs _ _ _ h
  | succ h ih =>
    intro t r hst
    refine ⟨?_, ?_⟩
    · have := hs _ _ _ hst.1
      show strict fine mem' r t.1 = some (.internal ((t.2.map fun c => (c.1, Tree.map f h c.2)).map fun c => (c.1, Tree.blk h c.2)))
      rw [this, List.map_map]
      simp only [Blk.map, Function.comp_def, Tree.map_blk]
    · intro c hc
      obtain ⟨c', hc', rfl⟩ := List.mem_map.mp hc
      exact ih c'.2 false (hst.2 c' hc')

theorem PDev.Ok.tree_ok {d : PDev} (h : d.Ok rd fine nr) : Clean (mapNodes rd) nr d.tree.h d.tree.t ∧ ∀ e ∈ d.tree.t.contents d.tree.h, ∃ b t, e.2 = Val.bt b t := by
  refine ⟨BT.Tree.map_clean (p := fun _ => True) (mem := rd64 rd true) _ h.clean ?_ (fun _ _ => trivial), ?_⟩
  · intro b _ nd hb _
    rw [mapNodes_rd64, hb]; rfl
  · intro e he
    have he : e ∈ (Tree.map (fun v => Val.bt (btOf v).block (btOf v).time) d.h d.t).contents d.h := he
    rw [BT.Tree.map_contents] at he
    obtain ⟨x, -, rfl⟩ := List.mem_map.mp he
    exact ⟨_, _, rfl⟩

theorem walk_strict {V : Type} {mem : Nat → Option (Blk V)} {rv : Bool → Nat → Option (Blk V)} {h : Nat} {t : Tree V h} (hc : Clean mem nr h t) (hst : t.Stored rv true h) :
    LW.walk rv nr (t.blk h) = some (LW.leafRanges h ⟨none, none⟩ t) := by
  have hroot : t.blk h < nr := hc.bound _ (by cases h <;> simp [Tree.blk, Tree.blocks])
  unfold LW.walk
  rw [LW.getDepth_tree _ _ true (nr + 1) hst hc.noEmpty (by have := hc.height; omega)]
  simp only
  rw [if_pos hroot]
  cases h with
  | zero => rfl
  | succ h =>
    refine LW.walkNode_tree h t true ⟨none, none⟩ 0 hst hc.ordered ?_ hc.bound
    rcases hc.noEmpty with h0 | h0
    · omega
    · exact h0

theorem PDev.Ok.walk {d : PDev} (h : d.Ok rd fine nr) :
    (LW.walk (strict fine (mapNodes rd)) nr (d.t.blk d.h)).map (fun ls => ls.map (·.2)) = some (Bld.leafBlocks d.tree.h d.tree.t) := by
  have hb : d.t.blk d.h = d.tree.t.blk d.tree.h := (BT.Tree.map_blk _ _ _).symm
  have hst : d.tree.t.Stored (strict fine (mapNodes rd)) true d.tree.h := strict_stored _ mapNodes_rd64 _ _ _ h.fine
  rw [hb, walk_strict h.tree_ok.1 hst]
  exact congrArg some (LW.leafRanges_blocks _ _ _)

theorem buildDevs_ok : ∀ (devs : List PDev), (∀ d ∈ devs, d.Ok rd fine nr) →
    buildDevs fine (mapNodes rd) nr (devs.map fun d => (d.id, d.t.blk d.h, toDetail d.det)) = some ((devs.map PDev.tree).map toDev) := by
  unfold buildDevs
  intro devs
  induction devs with
  | nil => intro _; rfl
  | cons d l ih =>
    intro h
    have hw := (h d (by simp)).walk
    cases e : LW.walk (strict fine (mapNodes rd)) nr (d.t.blk d.h) with
    | none => rw [e] at hw; cases hw
    | some ls =>
      rw [e] at hw
      have hw : ls.map (·.2) = _ := Option.some.inj hw
      simp only [List.map_cons, Gather.collect, e, ih (fun q hq => h q (by simp [hq])), Option.map_some]
      have e2 : ls.map (fun l => MEntry.leaf l.2) = (Bld.leafBlocks d.tree.h d.tree.t).map .leaf := by rw [← hw, List.map_map]; rfl
      rw [e2, Nat.mod_eq_of_lt (h d (by simp)).id]
      rfl

/-- whether a device is to be dumped -/
def selected (sel : Option (List Nat)) (d : PDev) : Bool :=
  match sel with
  | none => true
  | some ids => ids.contains d.id

theorem selectDevs_ok (sel : Option (List Nat)) (devs : List PDev) :
    TDump.selectDevs sel (devs.map fun d => (d.id, d.t.blk d.h, toDetail d.det)) = (devs.filter (selected sel)).map fun d => (d.id, d.t.blk d.h, toDetail d.det) := by
  cases sel with
  | none =>
    have : devs.filter (selected none) = devs := List.filter_eq_self.mpr (fun _ _ => rfl)
    rw [this]
    rfl
  | some ids =>
    show (devs.map _).filter _ = _
    rw [List.filter_map]
    rfl

theorem map_btreeToMap {h : Nat} {V : Type} {t : Tree V h} {rv : Bool → Nat → Option (Blk V)} (hrv : ∀ r, rv r = rv true) (hc : Clean (rv true) nr h t) :
    LW.btreeToMap rv nr (t.blk h) = some (t.contents h) := by
  have : rv = fun _ b => rv true b := by funext r b; rw [hrv r]
  rw [this]
  exact LW.btreeToMap_contents hc

theorem Pool.devicesOf {mr dr : Nat} {devs : List PDev} (h : Pool rd fine nr mr dr devs) {sb : Thin.Superblock} (hm : sb.mapping_root = mr) (hd : sb.details_root = dr) :
    devicesOf rd nr (.onDisk sb) = some (devs.map fun d => (d.id, d.t.blk d.h, toDetail d.det)) := by
  obtain ⟨hm', tm, m1, m2, m3⟩ := h.top
  obtain ⟨hd', td, d1, d2, d3⟩ := h.details
  unfold TRep.devicesOf
  simp only
  rw [hm, hd, ← m2, ← d2, map_btreeToMap (fun _ => rfl) m1, map_btreeToMap (fun _ => rfl) d1, m3, d3]
  simp only
  rw [List.map_map, TDump.zip_same, List.map_map]
  rfl

/-- The dump of devices with clean mapping trees, whatever kind of superblock lists them: a consistent document of exactly these devices. -/
theorem dump_devices {tsb : ThinSb} {sb : SbIR} {devs : List PDev} (hd : devicesOf rd nr tsb = some (devs.map fun d => (d.id, d.t.blk d.h, toDetail d.det)))
    (hsb : sbIr tsb = some sb) (hok : ∀ d ∈ devs, d.Ok rd fine nr) (sel : Option (List Nat)) :
    ∃ sects : List (Sect Nat), dumpSb rd fine nr tsb sel false = some (docEvents sb sects) ∧ Consistent (fun _ => none) sects ∧
      meaning (fun _ => none) sects = (devs.filter (selected sel)).map PDev.means := by
  obtain ⟨sects, h1, h2, h3, -⟩ := TDump.devs_document (mem := mapNodes rd) (nr := nr) ((devs.filter (selected sel)).map PDev.tree) (by
    intro d hd
    obtain ⟨p, hp, rfl⟩ := List.mem_map.mp hd
    exact (hok p (List.mem_filter.mp hp).1).tree_ok) sb
  refine ⟨sects, ?_, h2, ?_⟩
  · unfold dumpSb
    rw [if_neg (by decide), hd]
    simp only [Option.bind_some]
    rw [selectDevs_ok, buildDevs_ok _ (fun d hd => hok d (List.mem_filter.mp hd).1)]
    simp only
    rw [hsb]
    cases e : optimise nr (((devs.filter (selected sel)).map PDev.tree).map toDev) with
    | none => rw [e] at h1; cases h1
    | some md => rw [e] at h1; exact h1
  · rw [h3, List.map_map]
    refine List.map_congr_left ?_
    intro d _
    exact tree_means d

/-- C65: `thin_dump` of a pool (also with `--repair`, which only chooses the superblock): a consistent document with the superblock's values and exactly the selected devices. -/
theorem dump_pool {mr dr : Nat} {devs : List PDev} (h : Pool rd fine nr mr dr devs) {sb : Thin.Superblock} (hm : sb.mapping_root = mr) (hd : sb.details_root = dr)
    {n : Nat} (hn : Rep.refNr sb = some n) (sel : Option (List Nat)) :
    ∃ sects : List (Sect Nat), dumpSb rd fine nr (.onDisk sb) sel false = some (docEvents ⟨sb.time, sb.transaction_id, sb.data_block_size, n⟩ sects) ∧
      Consistent (fun _ => none) sects ∧ meaning (fun _ => none) sects = (devs.filter (selected sel)).map PDev.means :=
  dump_devices (h.devicesOf hm hd) (by simp only [sbIr, hn]; rfl) h.dev sel

/-- C65: with `--skip-mappings` the dump lists every device of the details tree with its details and no mapping at all; trees of mappings are not even read. -/
theorem dump_skip {hd : Nat} {td : Tree DeviceDetail hd} (hc : Clean (rdDet rd true) nr hd td) {sb : Thin.Superblock} (he : sb.details_root = td.blk hd)
    (hid : ∀ e ∈ td.contents hd, e.1 < 2 ^ 32) {n : Nat} (hn : Rep.refNr sb = some n) (sel : Option (List Nat)) :
    ∃ sects : List (Sect Nat), dumpSb rd fine nr (.onDisk sb) sel true = some (docEvents ⟨sb.time, sb.transaction_id, sb.data_block_size, n⟩ sects) ∧
      Consistent (fun _ => none) sects ∧ meaning (fun _ => none) sects = (td.contents hd).map fun e => (⟨e.1, docDetail e.2⟩, []) := by
  have hs := LW.ordered_sorted hd td 0 none hc.ordered
  refine ⟨(td.contents hd).map fun e => .dev ⟨e.1, toDetail e.2⟩ [], ?_, ?_, ?_⟩
  · unfold dumpSb
    rw [if_pos rfl]
    simp only [bareDevs, sbIr, hn, he, map_btreeToMap (fun _ => rfl) hc, Option.map_some]
    have : ∀ l : List (Nat × DeviceDetail), (∀ e ∈ l, e.1 < 2 ^ 32) →
        Gather.collect (fun d : Dev => (TDump.emitEntries (mapNodes rd) [] d.entries).map fun es => Ev.devB ⟨d.id, d.detail⟩ :: (es ++ [Ev.devE]))
          (l.map fun d => (⟨d.1 % 2 ^ 32, toDetail d.2, []⟩ : Dev)) = some ((l.map fun e => Sect.dev (N := Nat) ⟨e.1, toDetail e.2⟩ []).map Sect.events) := by
      intro l
      induction l with
      | nil => intro _; rfl
      | cons e l ih =>
        intro h
        simp only [List.map_cons, Gather.collect, ih (fun x hx => h x (by simp [hx])), TDump.emitEntries, TDump.flush, if_pos, Option.map_some,
          Nat.mod_eq_of_lt (h e (by simp))]
        rfl
    unfold dumpMetadata
    rw [this _ hid]
    show some _ = some _
    rw [docEvents, List.flatMap_def]
    rfl
  · have : ∀ l : List (Nat × DeviceDetail), Consistent (N := Nat) (fun _ => none) (l.map fun e => .dev ⟨e.1, toDetail e.2⟩ []) := by
      intro l
      induction l with
      | nil => trivial
      | cons e l ih => exact ⟨(by intro n hn; cases hn), List.Pairwise.nil, ih⟩
    exact this _
  · have : ∀ l : List (Nat × DeviceDetail), meaning (N := Nat) (fun _ => none) (l.map fun e => .dev ⟨e.1, toDetail e.2⟩ []) = l.map fun e => (⟨e.1, toDetail e.2⟩, []) := by
      intro l
      induction l with
      | nil => rfl
      | cons e l ih => simp only [List.map_cons, meaning, ih]; rfl
    exact this _

/-! ## The output -/

/-- what a restore leaves on the device holds the devices of the document -/
theorem restored_holds {N : Type} {epb n max : Nat} {sb : SbIR} (hnr : sb.nrData < 2 ^ 64) (hn : n < 2 ^ 64) {devices : List (DevIR × List (Nat × Val))} {r : R N} {img : Image} {out : SbOut}
    (h : Restored n max sb devices r) (hid : ∀ d ∈ devices, d.1.id < 2 ^ 32) (hbt : ∀ d ∈ devices, ∀ e ∈ d.2, ∃ b t, e.2 = .bt b t)
    (hr : r.nrData = sb.nrData) (ho : r.out = some out) {k droot S1 hx hov tx to ies mroot mies S hM tM db mb}
    (hw : SmsWritten epb n max r out img k droot S1 hx hov tx to ies mroot mies S hM tM db mb) : Holds img sb devices := by
  obtain ⟨devs, hm, tm, hd, td, g1, g2, g3, g4, g5, g6, g7, g8, g9, g10, g11, g12, g13, g14, -, g15, g16, -⟩ := h.result
  rw [ho] at g3
  obtain rfl := Option.some.inj g3
  have himg := hw.img
  have hinr : img.nr = n := by rw [himg]; exact hw.metad.sm.len
  have hlt : ∀ b, 0 < r.st.sm.abs b → b < n := by
    intro b hb
    by_cases e : n ≤ b
    · have := g14 b e; omega
    · omega
  have hmem : ∀ d ∈ devs, d.means ∈ devices := fun d hd => g2.mem_iff.mp (List.mem_map.mpr ⟨d, hd, rfl⟩)
  have hnode : ∀ b, 0 < r.st.sm.abs b → b ≠ 0 → img.nodes b = r.st.mem b := by
    intro b h1 h2
    rw [himg]
    show (if 0 < r.st.sm.counts.getD b 0 ∧ b ≠ 0 then r.st.mem b else none) = _
    rw [if_pos ⟨h1, h2⟩]
  have htop : ∀ b, b ∈ td.blocks hd ++ tm.blocks hm → 0 < r.st.sm.abs b ∧ b ≠ 0 := by
    intro b hb
    refine ⟨?_, ?_⟩
    · rw [g13 b]
      rcases List.mem_append.mp hb with hb | hb <;> have := List.count_pos_iff.mpr hb <;> omega
    · rintro rfl
      exact (List.nodup_cons.mp g15).1 hb
  have hdev : ∀ d ∈ devs, ∀ b ∈ d.t.blocks d.h, 0 < r.st.sm.abs b ∧ b ≠ 0 := by
    intro d hd b hb
    have hb' : b ∈ devs.flatMap fun d => d.t.blocks d.h := List.mem_flatMap.mpr ⟨d, hd, hb⟩
    refine ⟨?_, ?_⟩
    · rw [g13 b]
      have := List.count_pos_iff.mpr hb'
      omega
    · rintro rfl
      exact g16 0 (by simp) hb'
  have hstore : ∀ (h : Nat) (t : Tree Val h), t.Stored (fun _ b => r.st.mem b) true h → (∀ b ∈ t.blocks h, 0 < r.st.sm.abs b ∧ b ≠ 0) →
      t.Stored (fun _ b => img.nodes b) true h ∧ ∀ b ∈ t.blocks h, b < img.nr := by
    intro h t hs hb
    refine ⟨Parts.stored_mono h t true (fun b hb' nd hnd => ?_) hs, fun b hb' => by rw [hinr]; exact hlt b (hb b hb').1⟩
    rw [hnode b (hb b hb').1 (hb b hb').2]
    exact hnd
  refine ⟨by rw [himg]; rfl, by rw [himg]; rfl, by rw [himg]; rfl, ?_, devs, ⟨g1, fun d hd => hid _ (hmem d hd), ?_, ?_, ?_⟩, g2⟩
  · have hD := hw.disk
    have h4 : droot.nr_blocks = sb.nrData := by rw [hD.nr, ← hr]; simp [dataCounts]
    have hdlt : ∀ b, b ∈ tx.blocks hx ++ to.blocks hov ++ ies.map (·.blocknr) → b < n := by
      intro b hb
      by_cases e : b < n
      · exact e
      · have h1 := hD.rc b
        have h2 := List.count_pos_iff.mpr hb
        have h3 : S1.bt.sm.abs b = 0 := by
          show S1.bt.sm.counts.getD b 0 = 0
          rw [List.getD_eq_getElem?_getD, List.getElem?_eq_none (by rw [hD.sm.len]; omega)]
          rfl
        omega
    have h1 := hdlt droot.bitmap_root (by rw [← hD.xblk]; simp [TChk.blk_mem_blocks tx])
    have h2 := hdlt droot.ref_count_root (by rw [← hD.oblk]; simp [TChk.blk_mem_blocks to])
    have h3 : droot.nr_allocated ≤ r.nrData := by
      rw [hw.used]
      exact Nat.le_trans (List.length_filter_le _ _) (by simp)
    have := Parts.unpacks (r := droot) ⟨by omega, by omega, by omega, by omega⟩ hw.packD
    rw [himg]
    unfold CacheM.rootIn at this
    show (SMRoot.unpack db).map (fun x => x.1.nr_blocks) = _
    cases e : SMRoot.unpack db with
    | none => rw [e] at this; cases this
    | some x =>
      rw [e] at this
      have : x.1 = droot := Option.some.inj this
      show some x.1.nr_blocks = _
      rw [this, h4]
  · obtain ⟨s1, s2⟩ := hstore hm tm g4 fun b hb => htop b (List.mem_append.mpr (Or.inr hb))
    exact ⟨hm, tm, ⟨s1, g5, TDump.rootFilled_noEmpty (by decide) (by decide) hm tm g6, s2⟩, by rw [himg]; rfl, g7⟩
  · obtain ⟨s1, s2⟩ := hstore hd td g8 fun b hb => htop b (List.mem_append.mpr (Or.inl hb))
    exact ⟨hd, td, ⟨s1, g9, TDump.rootFilled_noEmpty (by decide) (by decide) hd td g10, s2⟩, by rw [himg]; rfl, g11⟩
  · intro d hd
    obtain ⟨a1, a2, a3⟩ := g12 d hd
    obtain ⟨s1, s2⟩ := hstore d.h d.t a1 (hdev d hd)
    exact ⟨⟨s1, a2, TDump.rootFilled_noEmpty (by decide) (by decide) d.h d.t a3, s2⟩, hbt _ (hmem d hd)⟩

/-! ## The whole repair -/

theorem means_ids {devs : List PDev} (h : devs.Pairwise fun a b => a.id < b.id) : ((devs.map PDev.means).map fun p => p.1.id).Nodup := by
  unfold List.Nodup
  rw [List.map_map, List.pairwise_map]
  refine h.imp ?_
  intro a b hab e
  have e : a.id = b.id := e
  omega

/-- Once the superblock is chosen: if it lists devices with clean mapping trees, `thin_repair` does not refuse, and unless there is no room on the output (or a reference
count is exhausted, or a mapping is beyond the number of data blocks) the output holds exactly these devices with all their mappings. -/
theorem repair_holds {epb n : Nat} (hz : CacheM.SmSize epb n) (hn : n < 2 ^ 64 - 1) {found : List Found} {dsb : Option Thin.Superblock} {o : Overrides} {tsb : ThinSb}
    (ht : Rep.readOrRebuild found dsb o = some tsb) {sb : SbIR} (hsb : sbIr tsb = some sb) (hsz : SizeOK sb) (hnr : sb.nrData < 2 ^ 64) {devs : List PDev}
    (hd : devicesOf rd nr tsb = some (devs.map fun d => (d.id, d.t.blk d.h, toDetail d.det))) (hs : devs.Pairwise fun a b => a.id < b.id) (hok : ∀ d ∈ devs, d.Ok rd fine nr)
    (mem : Nat → Option (Blk Val)) :
    ∃ x, repair epb rd fine nr found dsb o n mem = some x ∧ PostR x (fun img => Output epb n img sb (devs.map PDev.means)) := by
  obtain ⟨sects, h1, h2, h3⟩ := dump_devices hd hsb hok none
  have hall : devs.filter (selected none) = devs := List.filter_eq_self.mpr (fun _ _ => rfl)
  rw [hall] at h3
  refine ⟨restoreAll epb (docEvents sb sects) ⟨mem, SM.Core.new (2 ^ 32 - 1) n, [], []⟩, ?_, ?_⟩
  · unfold repair
    rw [ht]
    simp only [Option.bind_some, h1]
  · cases hx : restoreAll epb (docEvents sb sects) ⟨mem, SM.Core.new (2 ^ 32 - 1) n, [], []⟩ with
    | error e =>
      have := restoreAll_post hz (max := 2 ^ 32 - 1) (by decide) hn mem sb hsz sects h2 (by rw [h3]; exact means_ids hs)
      rw [hx] at this
      cases e <;> exact this
    | ok img =>
      refine ⟨?_, ?_⟩
      · have := restoreAll_post hz (max := 2 ^ 32 - 1) (by decide) hn mem sb hsz sects h2 (by rw [h3]; exact means_ids hs)
        rw [hx] at this
        obtain ⟨r, out, hR, hnrd, hout, k, droot, S1, hx, ho, tx, to, ies, mroot, mies, S, hM, tM, db, mb, hw⟩ := this
        rw [h3] at hR
        refine restored_holds hnr (by omega) hR ?_ ?_ hnrd hout hw
        · intro d hd
          obtain ⟨p, hp, rfl⟩ := List.mem_map.mp hd
          exact (hok p hp).id
        · intro d hd e he
          obtain ⟨p, hp, rfl⟩ := List.mem_map.mp hd
          obtain ⟨x, -, rfl⟩ := List.mem_map.mp he
          exact ⟨_, _, rfl⟩
      · intro hn32 hf hone d hsh o' ho' w fuel hfuel bot hbot
        rw [← h3] at hf hone ⊢
        exact (restore_check hz (by decide) hn32 mem sb hsz hnr sects h2 (by rw [h3]; exact means_ids hs) hf hone hx hsh ho' w hfuel bot hbot).1

/-! ## Finding the pool -/

theorem stored_leaf {V : Type} {mem : Nat → Option (Blk V)} : ∀ (h : Nat) (t : Tree V h) (r : Bool), t.Stored (fun _ b => mem b) r h → ∀ b ∈ t.blocks h, ∀ es, mem b = some (.leaf es) →
    (b, es) ∈ Bld.leavesOf h t
  | 0, t, r, hs, b, hb, es, he => by
    simp only [Tree.blocks, List.mem_singleton] at hb
    have hs : mem t.1 = some (.leaf t.2) := hs
    rw [hb, hs] at he
    cases he
    rw [hb]
    simp [Bld.leavesOf]
  | h + 1, t, r, hs, b, hb, es, he => by
    simp only [Tree.blocks, List.mem_cons] at hb
    rcases hb with hb | hb
    · have hs1 : mem t.1 = _ := hs.1
      rw [hb, hs1] at he
      cases he
    · obtain ⟨c, hc, hb⟩ := List.mem_flatMap.mp hb
      exact List.mem_flatMap.mpr ⟨c, hc, stored_leaf h c.2 false (hs.2 c hc) b hb es he⟩

theorem big_value {v n : Nat} (hn : n < 2 ^ 24) (h : (btOf v).block ≠ 0) : n < v := by
  have h : v >>> 24 ≠ 0 := h
  rw [Nat.shiftRight_eq_div_pow] at h
  have : ¬ v < 2 ^ 24 := fun hv => h (Nat.div_eq_of_lt hv)
  omega

/-- the leaves of the tree of devices look like roots -/
theorem Tops.leaves {mr : Nat} {devs : List PDev} (hdev : ∀ d ∈ devs, d.Ok rd fine nr) (hsome : devs ≠ []) {hm : Nat} {tm : Tree Nat hm} (m1 : Clean (rd64 rd true) nr hm tm)
    (m3 : tm.contents hm = devs.map fun d => (d.id, d.t.blk d.h)) : ∀ b es blk, b ∈ tm.blocks hm → rd b = some (.leaf blk es) → Rep.maybeTop nr es = true := by
  intro b es blk hb hrd
  have hl := stored_leaf hm tm true m1.stored b hb es (by unfold rd64; rw [hrd])
  have hsub : ∀ e ∈ es, e ∈ tm.contents hm := by
    intro e he
    rw [Bld.contents_leaves]
    exact List.mem_flatMap.mpr ⟨_, hl, he⟩
  unfold Rep.maybeTop
  rw [Bool.and_eq_true]
  refine ⟨?_, ?_⟩
  · cases es with
    | cons _ _ => rfl
    | nil =>
      exfalso
      -- an empty leaf is the whole tree
      revert tm
      cases hm with
      | zero =>
        intro tm m1 m3 hb hl hsub
        simp only [Bld.leavesOf, List.mem_singleton] at hl
        have : tm.2 = [] := (Prod.mk.inj hl).2.symm
        have h0 : tm.2 = _ := m3
        rw [this] at h0
        exact hsome (List.map_eq_nil_iff.mp h0.symm)
      | succ hm =>
        intro tm m1 m3 hb hl hsub
        rcases m1.noEmpty with h0 | h0
        · omega
        · have : ∀ (h : Nat) (t : Tree Nat h), t.NoEmpty h → ∀ l ∈ Bld.leavesOf h t, l.2 ≠ [] := by
            intro h
            induction h with
            | zero =>
              intro t hn l hl
              rw [Bld.leavesOf, List.mem_singleton] at hl
              subst hl
              exact hn
            | succ h ih =>
              intro t hn l hl
              obtain ⟨c, hc, hl⟩ := List.mem_flatMap.mp hl
              exact ih c.2 (hn.2 c hc) l hl
          exact this _ tm h0 _ hl rfl
  · rw [List.all_eq_true]
    intro e he
    have := hsub e he
    rw [m3] at this
    obtain ⟨d, hd', rfl⟩ := List.mem_map.mp this
    have := (hdev d hd').clean.bound _ (TChk.blk_mem_blocks d.t)
    exact decide_eq_true (by simp only; omega)

/-- those of a mapping tree do not -/
theorem PDev.Ok.leaves {d : PDev} (h : d.Ok rd fine nr) (hnr : nr < 2 ^ 24) (hm : ∀ l ∈ Bld.leavesOf d.h d.t, l.2 = [] ∨ ∃ e ∈ l.2, (btOf e.2).block ≠ 0) :
    ∀ b es blk, b ∈ d.t.blocks d.h → rd b = some (.leaf blk es) → Rep.maybeTop nr es = false := by
  intro b es blk hb hrd
  have hl := stored_leaf d.h d.t true h.clean.stored b hb es (by unfold rd64; rw [hrd])
  rcases hm _ hl with h0 | ⟨e, he, h0⟩
  · have h0 : es = [] := h0
    rw [h0]; rfl
  · have := big_value hnr h0
    cases hb : Rep.maybeTop nr es with
    | false => rfl
    | true =>
      unfold Rep.maybeTop at hb
      rw [Bool.and_eq_true, List.all_eq_true] at hb
      have := of_decide_eq_true (hb.2 e he)
      omega

/-- the mappings below a root -/
def mapsAt (devs : List PDev) (b : Nat) : List (Nat × Nat) := ((devs.find? fun d => d.t.blk d.h == b).map fun d => d.t.contents d.h).getD []

theorem mapsAt_spec {devs : List PDev} (h : ∀ d ∈ devs, d.Ok rd fine nr) : ∀ d ∈ devs, mapsAt devs (d.t.blk d.h) = d.t.contents d.h := by
  intro d hd
  unfold mapsAt
  cases e : devs.find? fun x => x.t.blk x.h == d.t.blk d.h with
  | none =>
    have := List.find?_eq_none.mp e d hd
    simp at this
  | some x =>
    have hx := List.find?_some e
    have hxm := List.mem_of_find?_eq_some e
    simp only [beq_iff_eq] at hx
    exact (LW.stored_unique x.h d.h x.t d.t true true (h x hxm).clean.stored (h d hd).clean.stored (h x hxm).clean.noEmpty (h d hd).clean.noEmpty hx).2

theorem Tops.trees {mr : Nat} {devs : List PDev} (h : Tops rd fine nr mr devs) (hr : RecTops rd nr mr devs) (hnr : nr < 2 ^ 24) {hm : Nat} {tm : Tree Nat hm}
    (m3 : tm.contents hm = devs.map fun d => (d.id, d.t.blk d.h)) :
    ∀ e ∈ tm.contents hm, ∃ hm', ∃ tm' : Tree Nat hm', Clean (rd64 rd true) nr hm' tm' ∧ tm'.blk hm' = e.2 ∧ tm'.contents hm' = mapsAt devs e.2 ∧
      ∀ b es blk, b ∈ tm'.blocks hm' → rd b = some (.leaf blk es) → Rep.maybeTop nr es = false := by
  intro e he
  rw [m3] at he
  obtain ⟨d, hd, rfl⟩ := List.mem_map.mp he
  exact ⟨d.h, d.t, (h.dev d hd).clean, rfl, (mapsAt_spec h.dev d hd).symm, (h.dev d hd).leaves hnr (hr.maps d hd)⟩

/-- the devices as the search for roots sees them -/
theorem Tops.devTree {mr : Nat} {devs : List PDev} (h : Tops rd fine nr mr devs) (hr : RecTops rd nr mr devs) (hnr : nr < 2 ^ 24) :
    Rep.DevTree rd nr (· ≠ []) (· ≠ []) mr (devs.map fun d => ⟨d.id, d.t.blk d.h, d.t.contents d.h⟩) := by
  obtain ⟨hm, tm, m1, m2, m3⟩ := h.top
  have := Rep.clean_devTree m1 (Tops.leaves (mr := mr) h.dev hr.some m1 m3) (h.trees hr hnr m3)
  rw [m2, m3, List.map_map] at this
  have e : (devs.map fun d => (⟨d.id, d.t.blk d.h, d.t.contents d.h⟩ : Rep.Device)) =
      devs.map ((fun e : Nat × Nat => (⟨e.1, e.2, mapsAt devs e.2⟩ : Rep.Device)) ∘ fun d : PDev => (d.id, d.t.blk d.h)) := by
    refine List.map_congr_left ?_
    intro d hd
    show _ = (⟨d.id, d.t.blk d.h, mapsAt devs (d.t.blk d.h)⟩ : Rep.Device)
    rw [mapsAt_spec h.dev d hd]
  rw [e]
  exact this

theorem Pool.healthy {mr dr : Nat} {devs : List PDev} (h : Pool rd fine nr mr dr devs) (hr : Recognisable rd nr mr dr devs) (hnr : nr < 2 ^ 24) :
    ∃ (hm : Nat) (tm : Tree Nat hm) (hd : Nat) (td : Tree DeviceDetail hd) (maps : Nat → List (Nat × Nat)), Rep.Healthy rd nr tm maps td ∧ tm.blk hm = mr ∧ td.blk hd = dr := by
  obtain ⟨hm, tm, m1, m2, m3⟩ := h.top
  obtain ⟨hd, td, d1, d2, d3⟩ := h.details
  refine ⟨hm, tm, hd, td, mapsAt devs, ⟨m1, Tops.leaves (mr := mr) h.dev hr.some m1 m3, d1, ?_, h.toTops.trees hr.toRecTops hnr m3, ?_⟩, m2, d2⟩
  · rw [m3, d3, List.map_map, List.map_map]; rfl
  · rw [m3, d3, List.flatMap_map, List.length_flatMap, List.map_map]
    have e1 : (devs.map fun d => (mapsAt devs (d.t.blk d.h)).length) = devs.map fun d => d.maps.length := by
      refine List.map_congr_left ?_
      intro d hd
      rw [mapsAt_spec h.dev d hd]
      simp [PDev.maps]
    show (devs.map fun d => (mapsAt devs (d.t.blk d.h)).length).sum = (devs.map fun d => d.det.mapped_blocks).sum
    rw [e1]
    exact hr.count

/-- the pool is among the roots found -/
theorem Pool.found {mr dr : Nat} {devs : List PDev} (h : Pool rd fine nr mr dr devs) (hr : Recognisable rd nr mr dr devs) (hnr : nr < 2 ^ 24) (hw : Rep.WF rd) (hl : Rep.InPlace rd) :
    ∃ d t, Rep.Compat rd nr d t ∧ d.b = mr ∧ t.b = dr := by
  obtain ⟨hm, tm, hd, td, maps, hh, e1, e2⟩ := h.healthy hr hnr
  obtain ⟨d, i, h1, h2, h3⟩ := Rep.healthy_compat hw hl hh (by rw [e1]; exact hr.mroot) (by rw [e2]; exact hr.droot)
  exact ⟨d, i, h1, h2.trans e1, h3.trans e2⟩

/-- **C65.**  A pool whose superblock can be read and points at it: whatever else is on the device (old trees, garbage), `thin_repair` finds it, and the output holds
exactly its devices and mappings, unless there is no room; the superblock is the old one but for the overrides. -/
theorem repair_pool {epb n : Nat} (hz : CacheM.SmSize epb n) (hn : n < 2 ^ 64 - 1) (hw : Rep.WF rd) (hl : Rep.InPlace rd) (hnr : nr < 2 ^ 24) {mr dr : Nat} {devs : List PDev}
    (h : Pool rd fine nr mr dr devs) (hr : Recognisable rd nr mr dr devs) {r : Option (List Found)} (hf : Rep.FindRoots rd nr r)
    {dsb dsb' : Thin.Superblock} (hm : dsb.mapping_root = mr) (hd : dsb.details_root = dr) {o : Overrides} (ho : Rep.override dsb o = some dsb') {nd : Nat} (hnd : Rep.refNr dsb' = some nd)
    (hnd64 : nd < 2 ^ 64) (hsz : SizeOK ⟨dsb'.time, dsb'.transaction_id, dsb'.data_block_size, nd⟩) (mem : Nat → Option (Blk Val)) :
    ∃ found x, r = some found ∧ repair epb rd fine nr found (some dsb) o n mem = some x ∧
      PostR x (fun img => Output epb n img ⟨dsb'.time, dsb'.transaction_id, dsb'.data_block_size, nd⟩ (devs.map PDev.means)) := by
  obtain ⟨d, t, hc, e1, e2⟩ := h.found hr hnr hw hl
  obtain ⟨f, fs, rfl, hall, -⟩ := Rep.findRoots_pairs hw hl hf ⟨d, t, hc⟩
  have hmem : Rep.toFound d t ∈ f :: fs := (hall _).mpr ⟨d, t, hc, rfl⟩
  obtain ⟨q1, q2, -⟩ := Rep.override_spec ho
  have htsb : Rep.readOrRebuild (f :: fs) (some dsb) o = some (.onDisk dsb') := by
    unfold Rep.readOrRebuild
    simp only
    rw [if_pos, ho]
    unfold Rep.consistentSb
    rw [List.any_eq_true]
    refine ⟨_, hmem, ?_⟩
    show decide (dsb.mapping_root = d.b ∧ dsb.details_root = t.b) = true
    exact decide_eq_true ⟨by rw [hm, e1], by rw [hd, e2]⟩
  obtain ⟨x, h1, h2⟩ := repair_holds (fine := fine) hz hn htsb (sb := ⟨dsb'.time, dsb'.transaction_id, dsb'.data_block_size, nd⟩) (by simp only [sbIr, hnd]; rfl) hsz hnd64
    (h.devicesOf (q1.trans hm) (q2.trans hd)) h.sorted h.dev mem
  exact ⟨_, x, rfl, h1, h2⟩

/-- a rebuild fails only for want of a valid data block size -/
theorem rebuild_some {f : Found} {ref : Option Thin.Superblock} {o : Overrides} {bs : Nat} (hb : o.blockSize.or (ref.map (·.data_block_size)) = some bs)
    (hv : 128 ≤ bs ∧ bs ≤ 2097152 ∧ bs % 128 = 0) : ∃ r, Rep.rebuild f ref o = some r := by
  unfold Rep.rebuild
  rw [hb]
  have hc : Rep.checkBs bs = some bs := by
    unfold Rep.checkBs
    rw [if_neg]
    rintro (h | h)
    · exact h ⟨hv.1, hv.2.1⟩
    · refine h ?_
      have : bs &&& (2 ^ 7 - 1) = bs % 2 ^ 7 := Nat.and_two_pow_sub_one_eq_mod bs 7
      rw [show (0x7f : Nat) = 2 ^ 7 - 1 from rfl, this]
      exact hv.2.2
  simp only [Option.bind_some, hc]
  obtain ⟨b, hb⟩ := Option.isSome_iff_exists.mp (packRoot_128 (⟨((o.nrData.or (ref.bind Rep.refNr)).filter fun n => decide (n > f.nrData)).getD f.nrData, 0, 0, 0⟩ : SMRoot))
  rw [hb]
  cases f.devices with
  | onDisk m d => exact ⟨_, rfl⟩
  | inCore devs => exact ⟨_, rfl⟩

theorem Tops.allMaps {mr : Nat} {devs : List PDev} (h : Tops rd fine nr mr devs) (hr : RecTops rd nr mr devs) (hnr : nr < 2 ^ 24) {P Q} {l : List Rep.Device}
    (hl : Rep.DevTree rd nr P Q mr l) : l = devs.map (fun d => ⟨d.id, d.t.blk d.h, d.t.contents d.h⟩) ∧ ∀ d ∈ devs, ∀ e ∈ d.t.contents d.h, e ∈ Rep.allMaps l := by
  have e := Rep.devTree_unique hl (h.devTree hr hnr)
  refine ⟨e, ?_⟩
  intro d hd x hx
  rw [e]
  exact List.mem_flatMap.mpr ⟨_, List.mem_map.mpr ⟨d, hd, rfl⟩, hx⟩

/-- **C65.**  The superblock is lost (unreadable, or it points elsewhere), and the roots of the pool are the only ones that fit together.  If the data block size is known (from
the override, or the superblock that points elsewhere) then `thin_repair` succeeds, unless there is no room, and the output holds exactly the devices and mappings of the pool.
Its time and transaction are not before any in the pool, and every mapped data block exists. -/
theorem repair_lost_superblock {epb n : Nat} (hz : CacheM.SmSize epb n) (hn : n < 2 ^ 64 - 1) (hw : Rep.WF rd) (hl : Rep.InPlace rd) (hnr : nr < 2 ^ 24) {mr dr : Nat} {devs : List PDev}
    (h : Pool rd fine nr mr dr devs) (hr : Recognisable rd nr mr dr devs) (honly : ∀ d t, Rep.Compat rd nr d t → d.b = mr ∧ t.b = dr)
    {r : Option (List Found)} (hf : Rep.FindRoots rd nr r) {dsb : Option Thin.Superblock} (hlost : ∀ s, dsb = some s → ¬ (s.mapping_root = mr ∧ s.details_root = dr)) {o : Overrides}
    {bs : Nat} (hbs : o.blockSize.or (dsb.map (·.data_block_size)) = some bs) (hv : 128 ≤ bs ∧ bs ≤ 2097152 ∧ bs % 128 = 0)
    (h64 : ∀ k, o.nrData.or (dsb.bind Rep.refNr) = some k → k < 2 ^ 64) (mem : Nat → Option (Blk Val)) :
    ∃ found x sb, r = some found ∧ repair epb rd fine nr found dsb o n mem = some x ∧ PostR x (fun img => Output epb n img sb (devs.map PDev.means)) ∧ sb.blockSize = bs ∧
      (∀ d ∈ devs, d.det.creation_time ≤ sb.time ∧ d.det.snapshotted_time ≤ sb.time ∧ ∀ e ∈ d.t.contents d.h, (btOf e.2).time ≤ sb.time) ∧
      ((∀ d ∈ devs, d.det.transaction_id < 2 ^ 64 - 1) → ∀ d ∈ devs, d.det.transaction_id < sb.transaction) ∧
      ((∀ d ∈ devs, ∀ e ∈ d.t.contents d.h, e.2 < 2 ^ 64) → ∀ d ∈ devs, ∀ e ∈ d.t.contents d.h, (btOf e.2).block < sb.nrData) := by
  obtain ⟨d, t, hc, e1, e2⟩ := h.found hr hnr hw hl
  obtain ⟨f, fs, rfl, hall, -⟩ := Rep.findRoots_pairs hw hl hf ⟨d, t, hc⟩
  obtain ⟨d0, t0, hc0, rfl⟩ := (hall f).mp (by simp)
  obtain ⟨b1, b2⟩ := honly d0 t0 hc0
  have hdev0 : (Rep.toFound d0 t0).devices = .onDisk mr dr := by show Rep.Roots.onDisk d0.b t0.b = _; rw [b1, b2]
  obtain ⟨tsb, htsb⟩ := rebuild_some (f := Rep.toFound d0 t0) hbs hv
  have hn0 : (Rep.toFound d0 t0).nrData < 2 ^ 64 := Nat.mod_lt _ (by decide)
  obtain ⟨sb, nd, rfl, s1, s2, -, -, -, s3, hR⟩ := Rep.rebuild_onDisk htsb hdev0 hn0 h64
  have hread : Rep.readOrRebuild (Rep.toFound d0 t0 :: fs) dsb o = some (.onDisk sb) := by
    unfold Rep.readOrRebuild
    cases dsb with
    | none => exact htsb
    | some s =>
      simp only
      rw [if_neg]
      · exact htsb
      · unfold Rep.consistentSb
        rw [List.any_eq_true]
        rintro ⟨g, hg, hgs⟩
        obtain ⟨d', t', hc', rfl⟩ := (hall g).mp hg
        have hgs : decide (s.mapping_root = d'.b ∧ s.details_root = t'.b) = true := hgs
        obtain ⟨q1, q2⟩ := of_decide_eq_true hgs
        obtain ⟨q3, q4⟩ := honly d' t' hc'
        exact hlost s rfl ⟨q1.trans q3, q2.trans q4⟩
  have hbs' : sb.data_block_size = bs := by
    have := hR.bs.1
    rw [hbs] at this
    exact (Option.some.inj this).symm
  have hnd : nd < 2 ^ 64 := by
    rcases hR.nrData.2.2 with e | e
    · rw [e]; exact hn0
    · exact h64 nd e
  obtain ⟨x, h1, h2⟩ := repair_holds (fine := fine) hz hn hread (sb := ⟨sb.time, sb.transaction_id, sb.data_block_size, nd⟩) (by simp only [sbIr, s3]; rfl)
    ⟨hR.bs.2.1, hR.bs.2.2.1, Nat.dvd_of_mod_eq_zero hR.bs.2.2.2⟩ hnd (h.devicesOf s1 s2) h.sorted h.dev mem
  obtain ⟨l, l', t1, t2, -, -, -, -, c1, c2, c3, c4⟩ := Rep.compat_found hw hc0
  rw [b1] at t1
  rw [b2] at t2
  obtain ⟨hm, tm, m1, m2, m3⟩ := h.top
  obtain ⟨hd, td, d1, d2, d3⟩ := h.details
  have hmaps := (h.toTops.allMaps hr.toRecTops hnr t1)
  have hdets : l' = devs.map fun d => (d.id, d.det) := by
    have := Rep.clean_detTree d1
    rw [d2, d3] at this
    exact Rep.detTree_unique t2 this
  have hin : ∀ d ∈ devs, (d.id, d.det) ∈ l' := fun d hd => by rw [hdets]; exact List.mem_map.mpr ⟨d, hd, rfl⟩
  refine ⟨_, x, ⟨sb.time, sb.transaction_id, sb.data_block_size, nd⟩, rfl, h1, h2, hbs', ?_, ?_, ?_⟩
  · intro d hd
    have := c2 _ (hin d hd)
    have ht := hR.time.1
    refine ⟨Nat.le_trans this.1 ht, Nat.le_trans this.2 ht, ?_⟩
    intro e he
    exact Nat.le_trans (c1 e (hmaps.2 d hd e he)) ht
  · intro hlt d hd
    refine Nat.lt_of_lt_of_le (c3 ?_ _ (hin d hd)) hR.tid.1
    intro x hx
    rw [hdets] at hx
    obtain ⟨d', hd', rfl⟩ := List.mem_map.mp hx
    exact hlt d' hd'
  · intro hlt d hd e he
    refine Nat.lt_of_lt_of_le (c4 ?_ _ (hmaps.2 d hd e he)) hR.nrData.1
    intro m hm'
    rw [hmaps.1] at hm'
    obtain ⟨y, hy, hm'⟩ := List.mem_flatMap.mp hm'
    obtain ⟨d', hd', rfl⟩ := List.mem_map.mp hy
    have := hlt d' hd' m hm'
    show m.2 >>> 24 < _
    rw [Nat.shiftRight_eq_div_pow]
    have : m.2 / 2 ^ 24 ≤ m.2 := Nat.div_le_self _ _
    omega

/-- **C65.**  Details and superblock are lost, the devices are still there, as the only ones: `thin_repair` builds new details.  The output holds exactly these devices
with all their mappings, the number of mappings counted, and times after those of all mappings. -/
theorem repair_lost_details {epb n : Nat} (hz : CacheM.SmSize epb n) (hn : n < 2 ^ 64 - 1) (hw : Rep.WF rd) (hl : Rep.InPlace rd) (hnr : nr < 2 ^ 24) {mr : Nat} {devs : List PDev}
    (h : Tops rd fine nr mr devs) (hr : RecTops rd nr mr devs) (hfew : ∀ d ∈ devs, (d.t.contents d.h).length < 2 ^ 64) (hno : ¬ ∃ d t, Rep.Compat rd nr d t)
    (honly : ∀ d, Rep.Valid rd nr d.b (.dev d) → Rep.IsRoot rd nr d.b → d.b = mr)
    {r : Option (List Found)} (hf : Rep.FindRoots rd nr r) {dsb : Option Thin.Superblock} {o : Overrides}
    {bs : Nat} (hbs : o.blockSize.or (dsb.map (·.data_block_size)) = some bs) (hv : 128 ≤ bs ∧ bs ≤ 2097152 ∧ bs % 128 = 0)
    (h64 : ∀ k, o.nrData.or (dsb.bind Rep.refNr) = some k → k < 2 ^ 64) (mem : Nat → Option (Blk Val)) :
    ∃ found x sb time, r = some found ∧ repair epb rd fine nr found dsb o n mem = some x ∧
      PostR x (fun img => Output epb n img sb (devs.map fun d => (⟨d.id, ⟨d.maps.length, sb.transaction - 1, time, time⟩⟩, d.maps))) ∧ sb.blockSize = bs ∧ 1 ≤ sb.transaction ∧ time ≤ sb.time ∧
      (∀ d ∈ devs, ∀ e ∈ d.t.contents d.h, (btOf e.2).time < time) ∧
      ((∀ d ∈ devs, ∀ e ∈ d.t.contents d.h, e.2 < 2 ^ 64) → ∀ d ∈ devs, ∀ e ∈ d.t.contents d.h, (btOf e.2).block < sb.nrData) := by
  obtain ⟨hm, tm, m1, m2, m3⟩ := h.top
  have hdt := h.devTree hr hnr
  obtain ⟨i, hi⟩ := Rep.devTree_found hw hdt (by
    rw [List.map_map, List.pairwise_map]
    exact h.sorted)
  have hib : i.b = mr := Rep.valid_loc hl hi
  obtain ⟨f, fs, rfl⟩ := Rep.findRoots_alone_found hw hl hf hno ⟨i, by rw [hib]; exact hi, by rw [hib]; exact hr.mroot⟩ (by
    intro d hd hd'
    exact ⟨hm, tm, m1, m2.trans (honly d hd hd').symm⟩)
  obtain ⟨ds, hne, hds, -, hlen, hzip⟩ := Rep.findRoots_alone hw hl hf hno
  obtain ⟨d0, ds, rfl⟩ := List.exists_cons_of_ne_nil hne
  obtain ⟨l, hA⟩ := hzip (d0, f) (by simp [List.zip_cons_cons])
  obtain ⟨v1, v2⟩ := (hds d0).mp (by simp)
  have hb0 := honly d0 v1 v2
  have hT := hA.tree
  rw [hb0] at hT
  have hmaps := h.allMaps hr hnr hT
  obtain ⟨tsb, htsb⟩ := rebuild_some (f := f) hbs hv
  obtain ⟨sb, rfl, s1, -, -, hR⟩ := Rep.rebuild_inCore htsb hA.devices
  have hread : Rep.readOrRebuild (f :: fs) dsb o = some (.inCore sb) := by
    unfold Rep.readOrRebuild
    cases dsb with
    | none => exact htsb
    | some s =>
      simp only
      rw [if_neg]
      · exact htsb
      · unfold Rep.consistentSb
        rw [List.any_eq_true]
        rintro ⟨g, hg, hgs⟩
        obtain ⟨k, hk, e⟩ := List.mem_iff_getElem.mp hg
        have hk' : k < (d0 :: ds).length := by omega
        obtain ⟨l', hA'⟩ := hzip ((d0 :: ds)[k], (f :: fs)[k]) (by
          rw [List.mem_iff_getElem]
          refine ⟨k, ?_, ?_⟩
          · rw [List.length_zip]; omega
          · rw [List.getElem_zip])
        have := hA'.devices
        simp only [e] at this
        rw [this] at hgs
        cases hgs
  let devs' : List PDev := devs.map fun d => { d with det := ⟨d.maps.length, sb.tid - 1, f.time, f.time⟩ }
  have hlen' : ∀ d : PDev, d.maps.length = (d.t.contents d.h).length := fun d => by simp [PDev.maps]
  have hdevs : devicesOf rd nr (.inCore sb) = some (devs'.map fun d => (d.id, d.t.blk d.h, toDetail d.det)) := by
    unfold devicesOf
    simp only
    rw [s1, hmaps.1]
    congr 1
    simp only [devs', List.map_map]
    refine List.map_congr_left ?_
    intro d hd
    simp only [Function.comp_apply, hlen', Nat.mod_eq_of_lt (hfew d hd)]
  have hbs' : sb.blockSize = bs := by
    have := hR.bs.1
    rw [hbs] at this
    exact (Option.some.inj this).symm
  have hfn : f.nrData < 2 ^ 64 := hA.small
  have hnd : sb.nrData < 2 ^ 64 := by
    rcases hR.nrData.2.2 with e | e
    · rw [e]; exact hfn
    · exact h64 _ e
  obtain ⟨x, h1, h2⟩ := repair_holds (fine := fine) hz hn hread (sb := ⟨sb.time, sb.tid, sb.blockSize, sb.nrData⟩) rfl
    ⟨hR.bs.2.1, hR.bs.2.2.1, Nat.dvd_of_mod_eq_zero hR.bs.2.2.2⟩ hnd hdevs
    (by simp only [devs', List.pairwise_map]; exact h.sorted)
    (by
      intro d hd
      obtain ⟨p, hp, rfl⟩ := List.mem_map.mp hd
      exact ⟨(h.dev p hp).id, (h.dev p hp).clean, (h.dev p hp).fine⟩) mem
  refine ⟨_, x, ⟨sb.time, sb.tid, sb.blockSize, sb.nrData⟩, f.time, rfl, h1, ?_, hbs', ?_, hR.time.1, ?_, ?_⟩
  · simp only [devs', List.map_map] at h2
    exact h2
  · have := hR.tid.1
    rw [hA.tid] at this
    exact this
  · intro d hd e he
    refine hA.time ?_ e (hmaps.2 d hd e he)
    intro m _
    show m.2 &&& (2 ^ 24 - 1) < _
    rw [Nat.and_two_pow_sub_one_eq_mod]
    have := Nat.mod_lt m.2 (show 0 < 2 ^ 24 by decide)
    omega
  · intro hlt d hd e he
    refine Nat.lt_of_lt_of_le (hA.data ?_ e (hmaps.2 d hd e he)) hR.nrData.1
    intro m hm'
    rw [hmaps.1] at hm'
    obtain ⟨y, hy, hm'⟩ := List.mem_flatMap.mp hm'
    obtain ⟨d', hd', rfl⟩ := List.mem_map.mp hy
    have := hlt d' hd' m hm'
    show m.2 >>> 24 < _
    rw [Nat.shiftRight_eq_div_pow]
    have : m.2 / 2 ^ 24 ≤ m.2 := Nat.div_le_self _ _
    omega

end Verif.TRep
