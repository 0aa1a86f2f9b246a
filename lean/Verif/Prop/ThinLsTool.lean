import Verif.Prop.ThinLsExact
import Verif.Prop.ThinLsTable
import Verif.Prop.ThinCheckPool
import Verif.Prop.RepairFind

/-!
# C66: what `thin_ls` prints for an undamaged pool
-/

namespace Verif.Ls

open Verif.BT (Blk Tree WSt)
open Verif.TChk (Dev Sm Sum u32 kids Sane nEnt TDev)

/-! ## What the fields say -/

/-- the meaning of the fields: sizes are in blocks, in sectors of 512 bytes, or in bytes; the highest sector and byte are the last ones of the highest block -/
def figure (bs id : Nat) (dt : DeviceDetail) (mapped shared high : Nat) : Field → Nat
  | .dev => id
  | .transaction => dt.transaction_id
  | .createTime => dt.creation_time
  | .snapTime => dt.snapshotted_time
  | .mappedBlocks => mapped
  | .mappedSectors => mapped * bs
  | .mappedBytes => mapped * bs * 512
  | .mapped => mapped * bs * 512
  | .exclusiveBlocks => mapped - shared
  | .exclusiveSectors => (mapped - shared) * bs
  | .exclusiveBytes => (mapped - shared) * bs * 512
  | .exclusive => (mapped - shared) * bs * 512
  | .sharedBlocks => shared
  | .sharedSectors => shared * bs
  | .sharedBytes => shared * bs * 512
  | .shared => shared * bs * 512
  | .highestBlock => high
  | .highestSector => (high + 1) * bs - 1
  | .highestByte => (high + 1) * bs * 512 - 1
  | .highestMapped => (high + 1) * bs * 512 - 1

/-- a number of bytes with a unit (`Units.prettySize_spec`) -/
def human (bytes : Nat) : List Char :=
  match Units.prettySize bytes with
  | some (m, u) => Units.showNat m ++ u.short
  | none => []

/-- the text of a cell -/
def cellText (f : Field) (v : Nat) : List Char := if f = .mapped ∨ f = .exclusive ∨ f = .shared ∨ f = .highestMapped then human v else Units.showNat v

theorem cell_text (f : Field) (v : Nat) : cell f v = cellText f v := by
  cases f <;> rfl

theorem value_figure {bs id : Nat} {dt : DeviceDetail} {mapped shared high : Nat} (hb : 0 < bs) (h1 : shared ≤ mapped) (h2 : mapped ≤ high + 1) (h3 : (high + 1) * bs * 512 < 2 ^ 64) (f : Field) :
    value bs id dt mapped shared high f = figure bs id dt mapped shared high f := by
  have hh : high + 1 ≤ (high + 1) * bs := Nat.le_mul_of_pos_right _ hb
  have hm : mapped * bs ≤ (high + 1) * bs := Nat.mul_le_mul_right _ h2
  have hs : shared * bs ≤ mapped * bs := Nat.mul_le_mul_right _ h1
  have he : (mapped - shared) * bs ≤ mapped * bs := Nat.mul_le_mul_right _ (by omega)
  have hx : (mapped + 2 ^ 64 - shared) % 2 ^ 64 = mapped - shared := by omega
  have hsh : ∀ x, x <<< 9 = x * 512 := fun x => Nat.shiftLeft_eq x 9
  cases f <;> simp only [value, figure, w64, pred64, hx, hsh]
  case mappedSectors => omega
  case mappedBytes => omega
  case mapped => omega
  case exclusiveSectors => omega
  case exclusiveBytes => omega
  case exclusive => omega
  case sharedSectors => omega
  case sharedBytes => omega
  case shared => omega
  case highestSector => rw [Nat.mod_eq_of_lt (show high + 1 < 2 ^ 64 by omega)]; omega
  case highestByte => rw [Nat.mod_eq_of_lt (show high + 1 < 2 ^ 64 by omega)]; omega
  case highestMapped => rw [Nat.mod_eq_of_lt (show high + 1 < 2 ^ 64 by omega)]; omega

/-- fields that do not need the mappings -/
theorem value_plain {bs id : Nat} {dt : DeviceDetail} {mapped shared high : Nat} : ∀ {fs : List Field}, someCounting fs = false → ∀ f ∈ fs,
    value bs id dt 0 0 0 f = figure bs id dt mapped shared high f := by
  intro fs
  induction fs with
  | nil => intro _ f hf; cases hf
  | cons g fs ih =>
    intro h f hf
    rcases List.mem_cons.mp hf with rfl | hf
    · cases f <;> simp only [someCounting, Bool.true_eq_false] at h <;> simp only [value, figure]
    · refine ih ?_ f hf
      cases g <;> simp only [someCounting, Bool.true_eq_false] at h <;> exact h

/-! ## The rows -/

theorem fold_field (h : Field → List Char) : ∀ (fs : List Field) (g : Grid), fs.foldl (fun g f => g.field (h f)) g = ⟨g.grid, g.current ++ fs.map h, g.maxColumns⟩ := by
  intro fs
  induction fs with
  | nil => intro g; simp
  | cons f fs ih => intro g; rw [List.foldl_cons, ih]; simp [Grid.field]

theorem pushHeaders_eq {fs : List Field} (hf : fs ≠ []) (rows : List (List (List Char))) : pushHeaders fs ⟨rows, [], fs.length⟩ = ⟨rows ++ [fs.map Field.name], [], fs.length⟩ := by
  unfold pushHeaders
  rw [if_neg (by simpa using hf), fold_field]
  simp [Grid.newRow]

theorem pushRow_eq {fs : List Field} (hf : fs ≠ []) (bs id : Nat) (dt : DeviceDetail) (a b c : Nat) (rows : List (List (List Char))) :
    pushRow fs bs id dt a b c ⟨rows, [], fs.length⟩ = ⟨rows ++ [fs.map fun f => cellText f (value bs id dt a b c f)], [], fs.length⟩ := by
  unfold pushRow
  rw [if_neg (by simpa using hf), fold_field fun f => cell f (value bs id dt a b c f)]
  simp [Grid.newRow, cell_text]

/-- the rows of the table: the names of the fields, unless they are not wanted, and one row for each device -/
def tableRows (o : LsOpts) (bs : Nat) (devs : List ((Nat × DeviceDetail) × (Nat × Nat × Nat))) : List (List (List Char)) :=
  (if o.noHeaders then [] else [o.fields.map Field.name]) ++ devs.map fun e => o.fields.map fun f => cellText f (figure bs e.1.1 e.1.2 e.2.1 e.2.2.1 e.2.2.2 f)

theorem logValues_leaves {V : Type} : ∀ (h : Nat) (path : List Nat) (kr : BT.KeyRange) (t : Tree V h) (rest : List (BT.Event V)),
    logValues (BT.leafEvents h path kr t ++ rest) = (t.contents h).map (·.2) ++ logValues rest := by
  intro h
  induction h with
  | zero => intro path kr t rest; rfl
  | succ h ih =>
    intro path kr t rest
    have : ∀ l : List (Nat × Tree V h), logValues (BT.eachRange (BT.leafEvents h (path ++ [t.1])) kr.fin l ++ rest) = (l.flatMap fun c => c.2.contents h).map (·.2) ++ logValues rest := by
      intro l
      induction l with
      | nil => rfl
      | cons p l ihl =>
        obtain ⟨k, c⟩ := p
        simp only [BT.eachRange, List.append_assoc, List.flatMap_cons, List.map_append]
        rw [ih, ihl]
    exact this t.2

theorem valueVec_contents {d : TDev} {mem : Nat → Option (Blk Nat)} {h : Nat} {t : Tree Nat h} (hm : d.tops = fun _ b => mem b) (hc : LW.Clean mem d.nr h t) :
    valueVec d (t.blk h) = some ((t.contents h).map (·.2)) := by
  have hroot : t.blk h < d.nr := hc.bound _ (by cases h <;> simp [BT.Tree.blk, BT.Tree.blocks])
  obtain ⟨h1, h2⟩ := BT.walk_clean (fun b => decide (b < d.nr)) (fun _ b => mem b) (fun _ _ => true) (fun _ _ => rfl) h t d.nr 1 (by omega) true
    (d.nr + 1) (by have := hc.height; omega) [] (by simpa using hroot) hc.stored hc.ordered hc.noEmpty hc.nodup hc.bound
  unfold valueVec
  rw [hm]
  simp only [h1, h2, if_true]
  rw [logValues_leaves]
  simp [logValues]

/-! ## The pool -/

/-- An undamaged pool with these devices: `devs` are the ids and details, `ts` the mapping trees, in the same order.  `snap` tells whether the superblock or its metadata snapshot is
listed.  Mapping trees may share nodes; nodes that are not just roots have at least 84 entries; no device maps a data block twice, all data blocks are blocks of the data device,
and the size of a device in bytes is less than 2^64. -/
structure Undamaged (unpackRoot : Bytes → Option SMRoot) (d : TDev) (snap : Bool) (sb : Thin.Superblock) (devs : List (Nat × DeviceDetail)) (ts : List TT) (nrData : Nat) : Prop where
  main : ∃ a dr mr, d.sb = some a ∧ unpackRoot a.data_sm_root = some dr ∧ dr.nr_blocks = nrData ∧ unpackRoot a.metadata_sm_root = some mr ∧
    (if snap then a.metadata_snap ≠ 0 ∧ d.sbAt a.metadata_snap = some sb else a = sb)
  top : ∃ mem, ∃ (h : Nat) (t : Tree Nat h), d.tops = (fun _ b => mem b) ∧ LW.Clean mem d.nr h t ∧ t.blk h = sb.mapping_root ∧
    (t.contents h).map (·.1) = devs.map (·.1) ∧ (t.contents h).map (·.2) = ts.map TT.root
  det : ∃ mem, ∃ (h : Nat) (t : Tree DeviceDetail h), d.dets = (fun _ b => mem b) ∧ LW.Clean mem d.nr h t ∧ t.blk h = sb.details_root ∧ t.contents h = devs
  lowNr : d.low.nr = d.nr
  sane : Sane d.low
  readAll : (∀ b n, d.low.rd b = some n → d.low.rdl b = some n) ∧ (∀ l i, d.low.many l i = true) ∧ ∀ l, d.low.chunkOk l = true
  clean : ∀ t ∈ ts, t.Clean d.low
  full : ∀ t ∈ ts, ∀ y ∈ t.nodes, ∀ c ∈ kids d.low y, 84 ≤ nEnt d.low c
  small : ∀ b, nEnt d.low b ≤ 255
  once : ∀ t ∈ ts, (t.entries.map (·.2 >>> 24)).Nodup
  inside : ∀ t ∈ ts, ∀ e ∈ t.entries, e.2 >>> 24 < nrData
  block : 0 < sb.data_block_size ∧ sb.data_block_size < 2 ^ 32
  size : ∀ t ∈ ts, ∀ e ∈ t.entries, (e.1 + 1) * sb.data_block_size * 512 < 2 ^ 64

theorem consistent_of {unpackRoot : Bytes → Option SMRoot} {d : TDev} {snap : Bool} {sb : Thin.Superblock} {devs : List (Nat × DeviceDetail)} {ts : List TT} {nrData : Nat}
    (I : Undamaged unpackRoot d snap sb devs ts nrData) : TChk.consistent d sb = true := by
  obtain ⟨m1, h1, t1, e1, c1, b1, k1, v1⟩ := I.top
  obtain ⟨m2, h2, t2, e2, c2, b2, k2⟩ := I.det
  unfold TChk.consistent
  rw [e1, e2, ← b1, ← b2, Rep.keySet_clean c1, Rep.keySet_clean c2, k1, k2]
  simp

theorem highest_bounds (t : TT) : (∀ e ∈ t.entries, e.1 ≤ highest t) ∧ (t.entries ≠ [] → ∃ e ∈ t.entries, e.1 = highest t) := by
  have key : ∀ (l : List Nat) (a : Nat), (∀ x ∈ l, x ≤ l.foldl max a) ∧ a ≤ l.foldl max a ∧ (l.foldl max a = a ∨ l.foldl max a ∈ l) := by
    intro l
    induction l with
    | nil => intro a; exact ⟨by simp, Nat.le_refl _, Or.inl rfl⟩
    | cons x l ih =>
      intro a
      obtain ⟨h1, h2, h3⟩ := ih (max a x)
      rw [List.foldl_cons]
      refine ⟨fun y hy => ?_, by omega, ?_⟩
      · rcases List.mem_cons.mp hy with rfl | hy
        · omega
        · exact h1 y hy
      · rcases h3 with h | h
        · rw [h]
          rcases Nat.le_total a x with q | q
          · rw [Nat.max_eq_right q]; exact Or.inr (by simp)
          · rw [Nat.max_eq_left q]; exact Or.inl rfl
        · exact Or.inr (List.mem_cons_of_mem _ h)
  obtain ⟨h1, -, h3⟩ := key (t.entries.map (·.1)) 0
  refine ⟨fun e he => h1 _ (List.mem_map.mpr ⟨e, he, rfl⟩), fun hne => ?_⟩
  rcases h3 with h | h
  · obtain ⟨e, l, hl⟩ := List.exists_cons_of_ne_nil hne
    refine ⟨e, by rw [hl]; simp, ?_⟩
    have := h1 e.1 (List.mem_map.mpr ⟨e, by rw [hl]; simp, rfl⟩)
    unfold highest
    omega
  · obtain ⟨e, he, h⟩ := List.mem_map.mp h
    exact ⟨e, he, h⟩

theorem length_le_highest {d : Dev} {t : TT} (hc : t.Clean d) : t.entries.length ≤ highest t + 1 := by
  have hs : (t.entries.map (·.1)).Pairwise (· < ·) := List.pairwise_map.mpr (LW.ordered_sorted t.1 t.2 0 none hc.ordered)
  have hn : (t.entries.map (·.1)).Nodup := hs.imp (fun h => Nat.ne_of_lt h)
  have hsub : ∀ x ∈ t.entries.map (·.1), x ∈ List.range (highest t + 1) := by
    intro x hx
    obtain ⟨e, he, rfl⟩ := List.mem_map.mp hx
    have := (highest_bounds t).1 e he
    exact List.mem_range.mpr (by omega)
  have h1 := TChk.sum_le_of_subset (fun _ => 1) _ _ hn hsub
  have h2 : ∀ l : List Nat, (l.map fun _ => 1).sum = l.length := by
    intro l
    induction l with
    | nil => rfl
    | cons a l ih => simp only [List.map_cons, List.sum_cons, List.length_cons, ih]; omega
  rw [h2, h2, List.length_map, List.length_range] at h1
  exact h1

/-- **C66.**  For an undamaged pool, or an undamaged metadata snapshot, `thin_ls` prints, whatever the order in which its threads work, a table with the wanted fields and one row
for each device: how many blocks it maps, how many of them another device maps as well, how many are its own, and the highest, in the units of the field. -/
theorem ls_exact {unpackRoot : Bytes → Option SMRoot} {d : TDev} {sb : Thin.Superblock} {devs : List (Nat × DeviceDetail)} {ts : List TT} {nrData : Nat} {o : LsOpts}
    (I : Undamaged unpackRoot d o.snap sb devs ts nrData) (hf : o.fields ≠ []) {fuel : Nat} (hfuel : d.nr ≤ fuel) (count : List Nat → Nat → Res LSums)
    (hcount : ∀ roots nr, Count d.low false fuel roots nr (count roots nr)) :
    ls unpackRoot count o d = .ok (Table.text (tableRows o sb.data_block_size (devs.zip (figures ts)))) := by
  obtain ⟨a, dr, mr, s1, s2, s3, s4, s5⟩ := I.main
  have hthe : theSb o.snap d = some sb := by
    unfold theSb
    cases hs : o.snap
    · rw [hs] at s5
      rw [if_neg (by simp), s1]
      simp only [Bool.false_eq_true, if_false] at s5
      rw [s5]
    · rw [hs] at s5
      simp only [if_true] at s5
      rw [if_pos rfl, s1]
      simp only
      rw [if_neg s5.1, s5.2]
  obtain ⟨m1, h1, t1, e1, c1, b1, k1, v1⟩ := I.top
  obtain ⟨m2, h2, t2, e2, c2, b2, k2⟩ := I.det
  have hdet : LW.btreeToMap d.dets d.nr sb.details_root = some devs := by
    rw [e2, ← b2, LW.btreeToMap_contents c2, k2]
  have hlen : devs.length = ts.length := by
    have h1 := congrArg List.length k1
    have h2 := congrArg List.length v1
    simp only [List.length_map] at h1 h2
    omega
  have hhead : (if o.noHeaders = true then Grid.new o.fields.length else pushHeaders o.fields (Grid.new o.fields.length)) =
      ⟨if o.noHeaders then [] else [o.fields.map Field.name], [], o.fields.length⟩ := by
    cases o.noHeaders
    · rw [if_neg (by simp), if_neg (by simp)]
      exact pushHeaders_eq hf []
    · rw [if_pos rfl, if_pos rfl]; rfl
  have hrow : ∀ e ∈ tableRows o sb.data_block_size (devs.zip (figures ts)), e.length = o.fields.length := by
    intro e he
    unfold tableRows at he
    rcases List.mem_append.mp he with he | he
    · cases hn : o.noHeaders
      · rw [hn, if_neg (by simp)] at he
        rw [List.mem_singleton.mp he, List.length_map]
      · rw [hn, if_pos rfl] at he; cases he
    · obtain ⟨x, -, rfl⟩ := List.mem_map.mp he
      rw [List.length_map]
  unfold ls
  rw [hthe]
  simp only
  rw [if_pos (consistent_of I), hdet]
  simp only
  rw [hhead]
  by_cases hsc : someCounting o.fields = true
  · rw [if_pos hsc, s1]
    simp only
    obtain ⟨m, l, r1, r2, r3⟩ := count_exact (d := d.low) I.sane I.readAll.1 I.readAll.2.1 I.readAll.2.2 I.clean (ign := false) (Or.inr I.full) I.small I.once I.inside
      (by rw [I.lowNr]; exact hfuel) (hcount (ts.map TT.root) nrData)
    have hcm : countMappings unpackRoot count d a sb.mapping_root = .ok l := by
      unfold countMappings
      rw [← b1, valueVec_contents e1 c1, v1]
      simp only [s2, s4, s3, r1, r2]
    rw [hcm]
    simp only
    have hll : l.length = ts.length := by
      have := congrArg List.length r3
      simpa [figures] using this
    have key : ∀ (ds : List (Nat × DeviceDetail)) (l : List LSum) (rows : List (List (List Char))),
        (∀ s ∈ l, s.shared ≤ s.sum.maps ∧ s.sum.maps ≤ s.sum.high + 1 ∧ (s.sum.high + 1) * sb.data_block_size * 512 < 2 ^ 64) →
        (ds.zip l).foldl (fun g e => pushRow o.fields sb.data_block_size e.1.1 e.1.2 e.2.sum.maps e.2.shared e.2.sum.high g) ⟨rows, [], o.fields.length⟩ =
          ⟨rows ++ (ds.zip (l.map fun s => (s.sum.maps, s.shared, s.sum.high))).map fun e => o.fields.map fun f => cellText f (figure sb.data_block_size e.1.1 e.1.2 e.2.1 e.2.2.1 e.2.2.2 f), [], o.fields.length⟩ := by
      intro ds
      induction ds with
      | nil => intro l rows _; simp
      | cons e ds ih =>
        intro l rows hl
        cases l with
        | nil => simp
        | cons s l =>
          obtain ⟨q1, q2, q3⟩ := hl s (by simp)
          rw [List.zip_cons_cons, List.foldl_cons, pushRow_eq hf, ih l _ fun x hx => hl x (by simp [hx])]
          rw [List.map_congr_left (g := fun f => cellText f (figure sb.data_block_size e.1 e.2 s.sum.maps s.shared s.sum.high f)) fun f _ => by rw [value_figure I.block.1 q1 q2 q3]]
          simp only [List.map_cons, List.zip_cons_cons, List.append_assoc, List.singleton_append]
    have hfig : ∀ s ∈ l, s.shared ≤ s.sum.maps ∧ s.sum.maps ≤ s.sum.high + 1 ∧ (s.sum.high + 1) * sb.data_block_size * 512 < 2 ^ 64 := by
      intro s hs
      have : (s.sum.maps, s.shared, s.sum.high) ∈ figures ts := by rw [← r3]; exact List.mem_map.mpr ⟨s, hs, rfl⟩
      unfold figures at this
      obtain ⟨i, hi, he⟩ := List.mem_iff_getElem.mp this
      simp only [List.getElem_mapIdx, Prod.mk.injEq] at he
      simp only [List.length_mapIdx] at hi
      have ht : ts[i] ∈ ts := List.getElem_mem hi
      obtain ⟨e1, e2, e3⟩ := he
      rw [← e1, ← e2, ← e3]
      refine ⟨List.countP_le_length, length_le_highest (I.clean _ ht), ?_⟩
      by_cases hne : ts[i].entries = []
      · have : highest ts[i] = 0 := by unfold highest; rw [hne]; rfl
        rw [this]
        have := I.block.2
        omega
      · obtain ⟨e, he, hh⟩ := (highest_bounds ts[i]).2 hne
        rw [← hh]
        exact I.size _ ht e he
    rw [key devs l _ hfig, r3]
    exact congrArg Res.ok (render_table _ _ _ hrow)
  · rw [if_neg hsc]
    have key : ∀ (ds : List (Nat × DeviceDetail)) (fs : List (Nat × Nat × Nat)) (rows : List (List (List Char))), ds.length = fs.length →
        ds.foldl (fun g e => pushRow o.fields sb.data_block_size e.1 e.2 0 0 0 g) ⟨rows, [], o.fields.length⟩ =
          ⟨rows ++ (ds.zip fs).map fun e => o.fields.map fun f => cellText f (figure sb.data_block_size e.1.1 e.1.2 e.2.1 e.2.2.1 e.2.2.2 f), [], o.fields.length⟩ := by
      intro ds
      induction ds with
      | nil => intro fs rows _; simp
      | cons e ds ih =>
        intro fs rows hl
        cases fs with
        | nil => simp at hl
        | cons s fs =>
          rw [List.foldl_cons, pushRow_eq hf, ih fs _ (by simpa using hl)]
          rw [List.map_congr_left (g := fun f => cellText f (figure sb.data_block_size e.1 e.2 s.1 s.2.1 s.2.2 f)) fun f hfm => by rw [value_plain (by simpa using hsc) f hfm]]
          simp only [List.zip_cons_cons, List.map_cons, List.append_assoc, List.singleton_append]
    rw [key devs (figures ts) _ (by simp [figures, hlen])]
    exact congrArg Res.ok (render_table _ _ _ hrow)

theorem digit_solid {c : Char} (h : Units.Digit c) : c ≠ ' ' ∧ c ≠ '\n' := by
  constructor <;> (rintro rfl; revert h; decide)

theorem cell_solid (f : Field) (v : Nat) (hv : f = .mapped ∨ f = .exclusive ∨ f = .shared ∨ f = .highestMapped → v < 2 ^ 64) : Solid (cellText f v) := by
  have hn : ∀ n, Solid (Units.showNat n) := by
    intro n
    obtain ⟨h1, h2, -⟩ := Units.showNat_spec n
    exact ⟨h2, fun h => (digit_solid (h1 _ h)).1 rfl, fun h => (digit_solid (h1 _ h)).2 rfl⟩
  unfold cellText
  split
  · rename_i hp
    unfold human
    obtain ⟨m, u, e, -⟩ := Units.prettySize_spec v (hv hp)
    rw [e]
    obtain ⟨h1, h2, h3⟩ := hn m
    have hu : ' ' ∉ u.short ∧ '\n' ∉ u.short := by cases u <;> decide
    refine ⟨by simp [h1], ?_, ?_⟩ <;> simp [h2, h3, hu]
  · exact hn v

theorem figures_bounds {unpackRoot : Bytes → Option SMRoot} {d : TDev} {snap : Bool} {sb : Thin.Superblock} {devs : List (Nat × DeviceDetail)} {ts : List TT} {nrData : Nat}
    (I : Undamaged unpackRoot d snap sb devs ts nrData) : ∀ f ∈ figures ts, f.2.1 ≤ f.1 ∧ f.1 ≤ f.2.2 + 1 ∧ (f.2.2 + 1) * sb.data_block_size * 512 < 2 ^ 64 := by
  intro f hf
  unfold figures at hf
  obtain ⟨i, hi, he⟩ := List.mem_iff_getElem.mp hf
  simp only [List.getElem_mapIdx] at he
  simp only [List.length_mapIdx] at hi
  have ht : ts[i] ∈ ts := List.getElem_mem hi
  rw [← he]
  refine ⟨List.countP_le_length, length_le_highest (I.clean _ ht), ?_⟩
  by_cases hne : ts[i].entries = []
  · have : highest ts[i] = 0 := by unfold highest; rw [hne]; rfl
    show (highest ts[i] + 1) * _ * 512 < _
    rw [this]
    have := I.block.2
    omega
  · obtain ⟨e, he, hh⟩ := (highest_bounds ts[i]).2 hne
    show (highest ts[i] + 1) * _ * 512 < _
    rw [← hh]
    exact I.size _ ht e he

theorem figure_lt {bs id : Nat} {dt : DeviceDetail} {m s h : Nat} (q1 : s ≤ m) (q2 : m ≤ h + 1) (q3 : (h + 1) * bs * 512 < 2 ^ 64) (f : Field)
    (hp : f = .mapped ∨ f = .exclusive ∨ f = .shared ∨ f = .highestMapped) : figure bs id dt m s h f < 2 ^ 64 := by
  have hm : m * bs ≤ (h + 1) * bs := Nat.mul_le_mul_right _ q2
  have hs : s * bs ≤ m * bs := Nat.mul_le_mul_right _ q1
  have hx : (m - s) * bs ≤ m * bs := Nat.mul_le_mul_right _ (by omega)
  rcases hp with rfl | rfl | rfl | rfl
  · exact Nat.lt_of_le_of_lt (Nat.mul_le_mul_right 512 hm) q3
  · exact Nat.lt_of_le_of_lt (Nat.mul_le_mul_right 512 (Nat.le_trans hx hm)) q3
  · exact Nat.lt_of_le_of_lt (Nat.mul_le_mul_right 512 (Nat.le_trans hs hm)) q3
  · show (h + 1) * bs * 512 - 1 < 2 ^ 64; omega

/-- **C66.**  And the cells of the table can be read back from what was printed, line by line and word by word. -/
theorem ls_readable {unpackRoot : Bytes → Option SMRoot} {d : TDev} {sb : Thin.Superblock} {devs : List (Nat × DeviceDetail)} {ts : List TT} {nrData : Nat} {o : LsOpts}
    (I : Undamaged unpackRoot d o.snap sb devs ts nrData) (hf : o.fields ≠ []) {fuel : Nat} (hfuel : d.nr ≤ fuel) (count : List Nat → Nat → Res LSums)
    (hcount : ∀ roots nr, Count d.low false fuel roots nr (count roots nr)) :
    ∃ text, ls unpackRoot count o d = .ok text ∧ readTable text = tableRows o sb.data_block_size (devs.zip (figures ts)) := by
  refine ⟨_, ls_exact I hf hfuel count hcount, table_words _ ?_⟩
  intro r hr c hc
  unfold tableRows at hr
  rcases List.mem_append.mp hr with hr | hr
  · cases hn : o.noHeaders
    · rw [hn, if_neg (by simp)] at hr
      rw [List.mem_singleton.mp hr] at hc
      obtain ⟨f, -, rfl⟩ := List.mem_map.mp hc
      exact name_solid f
    · rw [hn, if_pos rfl] at hr; cases hr
  · obtain ⟨e, he, rfl⟩ := List.mem_map.mp hr
    obtain ⟨f, -, rfl⟩ := List.mem_map.mp hc
    apply cell_solid
    intro hp
    obtain ⟨q1, q2, q3⟩ := figures_bounds I e.2 (List.of_mem_zip he).2
    exact figure_lt q1 q2 q3 f hp

end Verif.Ls
