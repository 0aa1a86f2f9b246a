import Verif.Model.TrimTool
import Verif.Prop.Trim
import Verif.Prop.ThinCheckPool

/-!
# C87: `thin_trim` leaves the data of thin devices alone
-/

namespace Verif.TrimTool

open Verif.TChk (TDev TOpts Wr Sm Sums Pool Reach)
open Verif.SMC (EntryAt)

variable {d : TDev} {sb : Thin.Superblock} {unpackRoot : Bytes → Option SMRoot} {P : Pool}

/-! ## Specification -/

/-- a thin device maps the data block `x`: a leaf reached from the root of its mapping tree says so -/
def Mapped (d : TDev) (roots : List Nat) (x : Nat) : Prop :=
  ∃ y es, Reach d.low roots y ∧ d.low.rd y = some (.leaf es) ∧ ∃ e ∈ es, e.2 >>> 24 = x

/-- byte `i` of the data device is discarded -/
def Discarded (ds : List (Nat × Nat)) (i : Nat) : Prop := ∃ r ∈ ds, r.1 ≤ i ∧ i < r.1 + r.2

/-! ## Lemmas -/

theorem mapped_refs (I : P.Intact d sb unpackRoot) (x : Nat) : Mapped d P.roots x ↔ P.dataRefs d x ≠ 0 := by
  have hsum : ∀ l : List Nat, (l.map fun b => (TChk.dataOf d.low b).count x).sum ≠ 0 ↔ ∃ b ∈ l, x ∈ TChk.dataOf d.low b := by
    intro l
    induction l with
    | nil => simp
    | cons a l ih =>
      rw [List.map_cons, List.sum_cons]
      constructor
      · intro h
        by_cases ha : x ∈ TChk.dataOf d.low a
        · exact ⟨a, by simp, ha⟩
        · rw [List.count_eq_zero.mpr ha, Nat.zero_add] at h
          obtain ⟨b, hb, hx⟩ := ih.mp h
          exact ⟨b, by simp [hb], hx⟩
      · rintro ⟨b, hb, hx⟩
        rcases List.mem_cons.mp hb with rfl | hb
        · have := List.count_pos_iff.mpr hx
          omega
        · have := ih.mpr ⟨b, hb, hx⟩
          omega
  unfold Pool.dataRefs
  rw [hsum]
  constructor
  · rintro ⟨y, es, h1, h2, e, he, h3⟩
    refine ⟨y, (I.leaves.2 y).mpr ⟨(I.nodes.2 y).mpr h1, es, h2⟩, ?_⟩
    unfold TChk.dataOf
    rw [h2]
    exact List.mem_map.mpr ⟨e, he, h3⟩
  · rintro ⟨y, hy, hx⟩
    obtain ⟨h1, es, h2⟩ := (I.leaves.2 y).mp hy
    unfold TChk.dataOf at hx
    rw [h2] at hx
    obtain ⟨e, he, h3⟩ := List.mem_map.mp hx
    exact ⟨y, es, (I.nodes.2 y).mp h1, h2, e, he, h3⟩

theorem readRows_spec {bm : Nat → Option (Bool × List BE)} : ∀ (ies : List IndexEntry), (∀ ie ∈ ies, ∃ es, bm ie.blocknr = some (true, es)) →
    ∃ rows, readRows bm ies = some rows ∧ rows.length = ies.length ∧ ∀ (k : Nat) (row : List BE), rows[k]? = some row ↔ ∃ ie : IndexEntry, ies[k]? = some ie ∧ bm ie.blocknr = some (true, row) := by
  intro ies
  induction ies with
  | nil => intro _; exact ⟨[], rfl, rfl, fun k row => by simp⟩
  | cons ie ies ih =>
    intro h
    obtain ⟨es, hes⟩ := h ie (by simp)
    obtain ⟨rows, h1, h2, h3⟩ := ih fun x hx => h x (by simp [hx])
    refine ⟨es :: rows, ?_, by simp [h2], ?_⟩
    · unfold readRows
      rw [hes, h1]
    · intro k row
      cases k with
      | zero => simp [hes]
      | succ k => simpa using h3 k row

theorem readBitmaps_pool (I : P.Intact d sb unpackRoot) (hr : ∀ ie ∈ P.ies, ∃ es, d.bm ie.blocknr = some (true, es)) :
    ∃ rows, readBitmaps d P.droot.bitmap_root = some rows ∧ rows.length = P.ies.length ∧
      ∀ (k : Nat) (row : List BE), rows[k]? = some row ↔ ∃ ie : IndexEntry, P.ies[k]? = some ie ∧ d.bm ie.blocknr = some (true, row) := by
  obtain ⟨rows, h1, h2⟩ := readRows_spec P.ies hr
  refine ⟨rows, ?_, h2⟩
  obtain ⟨mem, hm, hX, -, -⟩ := I.sms
  unfold readBitmaps
  rw [hm, ← hX.blk, TChk.toMap_adds hX.clean (TChk.restricted d.nr) rfl Nat.one_pos (fun _ _ => rfl)]
  simp only
  rw [hX.contents, SMC.indexValues_contents, h1]

/-- a block is unused for `thin_trim` exactly if its entry is a zero -/
theorem unused_iff {E : Nat} (hE : 0 < E) {bm : Nat → Option (Bool × List BE)} (hlen : ∀ loc t es, bm loc = some (t, es) → es.length = E) {ies : List IndexEntry}
    {rows : List (List BE)} (hrows : ∀ (k : Nat) (row : List BE), rows[k]? = some row ↔ ∃ ie : IndexEntry, ies[k]? = some ie ∧ bm ie.blocknr = some (true, row)) {x : Nat} (hx : x < rows.length * E) :
    ∃ e, EntryAt E bm (ies.map (·.blocknr)) x e ∧ (Trim.used E (rows.map bits) x = false ↔ e = .small 0) := by
  have hk : x / E < rows.length := (Nat.div_lt_iff_lt_mul hE).mpr hx
  have hm : x % E < E := Nat.mod_lt _ hE
  have hrow : rows[x / E]? = some rows[x / E] := List.getElem?_eq_getElem hk
  obtain ⟨ie, h1, h2⟩ := (hrows _ _).mp hrow
  have h3 : rows[x / E].length = E := hlen _ _ _ h2
  have hlenb : ∀ b ∈ rows.map bits, b.length = E := by
    intro b hb
    obtain ⟨row, hr, rfl⟩ := List.mem_map.mp hb
    obtain ⟨k, hk', hke⟩ := List.getElem_of_mem hr
    obtain ⟨ie', -, h2'⟩ := (hrows k row).mp (by rw [List.getElem?_eq_getElem hk', hke])
    unfold bits
    rw [List.length_map]
    exact hlen _ _ _ h2'
  refine ⟨rows[x / E][x % E]'(by omega), ⟨ie.blocknr, true, rows[x / E], ?_, h2, List.getElem?_eq_getElem (by omega)⟩, ?_⟩
  · rw [List.getElem?_map, h1]
    rfl
  · have hb : (rows.map bits)[x / E]? = some (bits rows[x / E]) := by rw [List.getElem?_map, hrow]; rfl
    have := Trim.used_eq (nr := 0) hlenb hb hm
    have hx' : x / E * E + x % E = x := by rw [Nat.mul_comm]; exact Nat.div_add_mod x E
    rw [hx'] at this
    rw [this]
    unfold bits
    rw [List.getElem?_map, List.getElem?_eq_getElem (by omega)]
    simp

theorem trim_within {E nr bs : Nat} (hE : 0 < E) {bitmaps : List (List Bool)} (hlen : ∀ b ∈ bitmaps, b.length = E) (hne : bitmaps ≠ []) (hnr : nr ≤ bitmaps.length * E)
    {ds : List (Nat × Nat)} (h : Trim.trim E nr bs bitmaps = some (some ds)) : ∀ r ∈ ds, (0 < bs → 0 < r.2) ∧ r.1 + r.2 ≤ nr * bs := by
  obtain ⟨l, h1, h2⟩ := Trim.trim_exact hE hlen hne hnr bs
  rw [h1] at h
  cases h
  intro r hr
  obtain ⟨q, hq, rfl⟩ := List.mem_map.mp hr
  have hp := h2.pos q hq
  have hlt := ((h2.cover (q.1 + q.2 - 1)).mpr ⟨q, hq, by omega, by omega⟩).1
  refine ⟨fun hb => Nat.mul_pos hp hb, ?_⟩
  simp only
  rw [← Nat.add_mul]
  exact Nat.mul_le_mul_right bs (by omega)

theorem issue_sub (works : Nat → Bool) : ∀ (ds : List (Nat × Nat)) (i : Nat), (∀ r ∈ (issue works ds i).1, r ∈ ds) ∧ ((issue works ds i).2 = true → (issue works ds i).1 = ds) := by
  intro ds
  induction ds with
  | nil => intro i; exact ⟨fun _ h => h, fun _ => rfl⟩
  | cons r ds ih =>
    intro i
    obtain ⟨h1, h2⟩ := ih (i + 1)
    unfold issue
    by_cases hw : works i = true
    · rw [if_pos hw]
      refine ⟨?_, fun h => by simp only at h ⊢; rw [h2 h]⟩
      intro q hq
      rcases List.mem_cons.mp hq with rfl | hq
      · simp
      · simp [h1 q hq]
    · rw [if_neg hw]
      refine ⟨?_, fun h => by cases h⟩
      intro q hq
      rw [List.mem_singleton] at hq
      simp [hq]

theorem command_ok {E : Nat} {bot : List Nat → Sm → Sm → Sm × Sm × Option Sums} {w : Wr} {dd : DataDev} (hsb : d.sb = some sb)
    (hc : (TChk.check unpackRoot bot w checkOpts d).2 = .ok) :
    command E unpackRoot bot w d dd = ⟨(trimData E unpackRoot d sb dd).1, (trimData E unpackRoot d sb dd).2, d⟩ := by
  have h1 := (TChk.check_writes unpackRoot bot w checkOpts d).2.1 rfl
  unfold command
  cases h : TChk.check unpackRoot bot w checkOpts d with
  | mk d' e =>
    rw [h] at hc h1
    simp only at hc h1
    subst hc
    subst h1
    simp only [hsb]

/-- how often the data space map counts a block at most: beyond 255 devices the counters are wider than the byte that the check compares -/
theorem dataExp_small {x : Nat} (hx : x < P.droot.nr_blocks) (hb : P.roots.length ≤ 255 ∨ P.dataRefs d x < 256) :
    ∃ c, (P.dataExp d)[x]? = some c ∧ c < 256 ∧ (c = 0 ↔ P.dataRefs d x = 0) := by
  refine ⟨min (TChk.createDataSm P.droot P.roots.length).mx (P.dataRefs d x), ?_, ?_, ?_⟩
  · unfold Pool.dataExp
    rw [List.getElem?_map, List.getElem?_range hx]
    rfl
  · rcases hb with hb | hb
    · have : (TChk.createDataSm P.droot P.roots.length).mx ≤ 255 := by
        unfold TChk.createDataSm
        split
        · exact Nat.one_le_iff_ne_zero.mpr (by decide)
        · unfold TChk.coreSm
          simp only
          rw [if_pos hb]
          exact Nat.le_refl _
      omega
    · omega
  · have : 0 < (TChk.createDataSm P.droot P.roots.length).mx := by
      unfold TChk.createDataSm
      split
      · exact Nat.one_pos
      · unfold TChk.coreSm
        simp only
        split
        · omega
        · split <;> omega
    omega

/-! ## C87 -/

/-- **C87.**  A check that fails: nothing is discarded, and the exit status says that the metadata is bad (or the check itself crashed). -/
theorem command_stops (E : Nat) (bot : List Nat → Sm → Sm → Sm × Sm × Option Sums) (w : Wr) (d : TDev) (dd : DataDev)
    (hc : (TChk.check unpackRoot bot w checkOpts d).2 ≠ .ok) :
    (command E unpackRoot bot w d dd).discards = [] ∧
      (command E unpackRoot bot w d dd).code = if (TChk.check unpackRoot bot w checkOpts d).2 = .crash then .crash else .dataerr := by
  unfold command
  cases h : TChk.check unpackRoot bot w checkOpts d with
  | mk d' e =>
    rw [h] at hc
    cases e with
    | ok => exact absurd rfl hc
    | err => exact ⟨rfl, rfl⟩
    | crash => exact ⟨rfl, rfl⟩

/-- **C87.**  Whatever happens, the metadata device stays as it is. -/
theorem command_quiet (E : Nat) (bot : List Nat → Sm → Sm → Sm × Sm × Option Sums) (w : Wr) (d : TDev) (dd : DataDev) : (command E unpackRoot bot w d dd).md = d := by
  have h1 := (TChk.check_writes unpackRoot bot w checkOpts d).2.1 rfl
  unfold command
  cases h : TChk.check unpackRoot bot w checkOpts d with
  | mk d' e =>
    rw [h] at h1
    simp only at h1
    subst h1
    cases e with
    | err => rfl
    | crash => rfl
    | ok =>
      simp only
      split <;> rfl

/-- **C87.**  A data device that is smaller than the pool says, or of unknown size, or cannot be opened: nothing is discarded and the exit status is not 0, whatever is on the metadata device. -/
theorem command_refuses (E : Nat) (bot : List Nat → Sm → Sm → Sm × Sm × Option Sums) (w : Wr) (d : TDev) (dd : DataDev)
    (hbad : dd.opens = false ∨ dd.size = none ∨ ∃ sb root size, d.sb = some sb ∧ unpackRoot sb.data_sm_root = some root ∧ dd.size = some size ∧
      size < root.nr_blocks * (sb.data_block_size * 512) ∧ root.nr_blocks * (sb.data_block_size * 512) < 2 ^ 64) :
    (command E unpackRoot bot w d dd).discards = [] ∧ (command E unpackRoot bot w d dd).code ≠ .ok := by
  by_cases hc : (TChk.check unpackRoot bot w checkOpts d).2 = .ok
  · cases hsb : d.sb with
    | none =>
      exfalso
      unfold TChk.check at hc
      rw [if_neg (by decide), hsb] at hc
      cases hc
    | some sb =>
      rw [command_ok hsb hc]
      simp only
      unfold trimData
      cases h1 : unpackRoot sb.data_sm_root with
      | none => exact ⟨rfl, fun h => Code.noConfusion h⟩
      | some root =>
        simp only
        cases h2 : dd.size with
        | none => exact ⟨rfl, fun h => Code.noConfusion h⟩
        | some size =>
          simp only
          by_cases h3 : size < root.nr_blocks * (sb.data_block_size * 512) % 2 ^ 64
          · rw [if_pos h3]; exact ⟨rfl, fun h => Code.noConfusion h⟩
          · rw [if_neg h3]
            rcases hbad with hb | hb | ⟨sb', root', size', e1, e2, e3, e4, e5⟩
            · cases readBitmaps d root.bitmap_root with
              | none => exact ⟨rfl, fun h => Code.noConfusion h⟩
              | some rows => simp only [hb]; exact ⟨rfl, fun h => Code.noConfusion h⟩
            · rw [h2] at hb; cases hb
            · rw [hsb] at e1
              cases e1
              rw [h1] at e2
              cases e2
              rw [h2] at e3
              cases e3
              rw [Nat.mod_eq_of_lt e5] at h3
              exact absurd e4 h3
  · obtain ⟨h1, h2⟩ := command_stops E bot w d dd hc
    refine ⟨h1, ?_⟩
    rw [h2]
    split <;> decide

/-- **C87**, the core: after a check that passed, either nothing is asked for and the command fails, or the discards are those of the blocks that no device maps, up to the first that does not work. -/
theorem command_trims {E : Nat} (hE : 0 < E) (hrd : SMC.Entries E d.bm) (I : P.Intact d sb unpackRoot) (w : Wr)
    (hmin : ∀ y c, y ∈ P.N → c ∈ TChk.kids d.low y → TChk.MIN_ENTRIES ≤ TChk.nEnt d.low c) {fuel : Nat} (hf : d.nr ≤ fuel)
    (bot : List Nat → Sm → Sm → Sm × Sm × Option Sums) (hbot : ∀ roots msm dsm, TChk.Bottom d.low false fuel roots msm dsm (bot roots msm dsm))
    (hbs : 0 < sb.data_block_size) (hsz : P.droot.nr_blocks * (sb.data_block_size * 512) < 2 ^ 64) (dd : DataDev)
    (hok : (TChk.check unpackRoot bot w checkOpts d).2 = .ok) :
    ((command E unpackRoot bot w d dd).discards = [] ∧ (command E unpackRoot bot w d dd).code ≠ .ok) ∨
    ∃ ds size, dd.size = some size ∧ P.droot.nr_blocks * (sb.data_block_size * 512) ≤ size ∧
      (∀ r ∈ ds, r.1 + r.2 ≤ P.droot.nr_blocks * (sb.data_block_size * 512)) ∧ (∀ r ∈ (command E unpackRoot bot w d dd).discards, r ∈ ds) ∧ ((command E unpackRoot bot w d dd).code = .ok → (command E unpackRoot bot w d dd).discards = ds) ∧
      ∀ i, (P.roots.length ≤ 255 ∨ P.dataRefs d (i / (sb.data_block_size * 512)) < 256) →
        (Discarded ds i ↔ i / (sb.data_block_size * 512) < P.droot.nr_blocks ∧ ¬ Mapped d P.roots (i / (sb.data_block_size * 512))) := by
  have ho : checkOpts.full := ⟨rfl, rfl, rfl, rfl, rfl⟩
  obtain ⟨c1, c2⟩ := TChk.check_pool I ho w (Or.inr hmin) hf bot hbot
  obtain ⟨g1, g2, g3, dl, ml, g4, g5⟩ := c2 hok
  have hdl : dl = [] := by
    have heq := c1 dl ml g1 g2 g3 g4 g5
    rw [heq] at hok
    unfold TChk.finish TChk.repairStep at hok
    cases hd : dl.isEmpty
    · simp [hd, checkOpts] at hok
    · exact List.isEmpty_iff.mp hd
  subst hdl
  obtain ⟨s1, s2⟩ := SMC.checkLow_spec hE hrd.len (P.dataExp d) P.ies
  obtain ⟨hread, hbad⟩ := s1.mp ⟨_, g4⟩
  obtain ⟨-, hleak⟩ := s2 [] g4
  obtain ⟨rows, r1, r2, r3⟩ := readBitmaps_pool I hread
  have hlenb : ∀ b ∈ rows.map bits, b.length = E := by
    intro b hb
    obtain ⟨row, hr, rfl⟩ := List.mem_map.mp hb
    obtain ⟨k, hk', hke⟩ := List.getElem_of_mem hr
    obtain ⟨ie', -, h2'⟩ := (r3 k row).mp (by rw [List.getElem?_eq_getElem hk', hke])
    unfold bits
    rw [List.length_map]
    exact hrd.len _ _ _ h2'
  rw [command_ok I.sbIs hok]
  simp only
  unfold trimData
  rw [I.droot]
  simp only
  cases hsize : dd.size with
  | none => left; exact ⟨rfl, by simp⟩
  | some size =>
    simp only
    rw [Nat.mod_eq_of_lt hsz]
    by_cases hsm : size < P.droot.nr_blocks * (sb.data_block_size * 512)
    · rw [if_pos hsm]; left; exact ⟨rfl, by simp⟩
    · rw [if_neg hsm, r1]
      simp only
      cases hop : dd.opens
      · left; exact ⟨rfl, by simp⟩
      · simp only [Bool.not_true, Bool.false_eq_true, if_false]
        by_cases hfew : rows.map bits = [] ∨ (rows.map bits).length * E < P.droot.nr_blocks
        · rw [Trim.trim_refuses E P.droot.nr_blocks _ _ hfew]
          left; exact ⟨rfl, by simp⟩
        · have hne : rows.map bits ≠ [] := fun h => hfew (Or.inl h)
          have hnr : P.droot.nr_blocks ≤ (rows.map bits).length * E := Nat.le_of_not_lt fun h => hfew (Or.inr h)
          obtain ⟨ds, t1, t2⟩ := Trim.trim_bytes (bs := sb.data_block_size * 512) hE (by omega) hlenb hne hnr
          rw [t1]
          simp only
          have hin := trim_within hE (bs := sb.data_block_size * 512) hlenb hne hnr t1
          have hw : ds.map wrap = ds := by
            rw [List.map_congr_left (g := id), List.map_id]
            intro r hr
            obtain ⟨h1, h2⟩ := hin r hr
            unfold wrap
            rw [Nat.mod_eq_of_lt (by omega), Nat.mod_eq_of_lt (by omega)]
            rfl
          rw [hw]
          right
          obtain ⟨i1, i2⟩ := issue_sub dd.works ds 0
          refine ⟨ds, size, rfl, by omega, fun r hr => (hin r hr).2, i1, ?_, ?_⟩
          · intro h
            apply i2
            cases hi : (issue dd.works ds 0).2
            · rw [hi] at h; cases h
            · rfl
          · intro i hi
            unfold Discarded
            rw [t2 i, mapped_refs I]
            apply and_congr_right
            intro hlt
            obtain ⟨c, e1, e2, e3⟩ := dataExp_small hlt hi
            have hx : i / (sb.data_block_size * 512) < rows.length * E := by
              rw [List.length_map] at hnr
              omega
            obtain ⟨e, f1, f2⟩ := unused_iff hE hrd.len r3 hx
            rw [f2, Classical.not_not, ← e3]
            have hnb := hbad _ _ _ e1 f1
            have hnl : ¬ SMC.Leaked e c := by
              intro hl
              obtain ⟨loc, t, es, q1, q2, q3⟩ := f1
              have := (hleak ⟨i / (sb.data_block_size * 512) / E * E, loc⟩).mpr ⟨_, q1, rfl, _, c, rfl, e1, e, ⟨loc, t, es, q1, q2, q3⟩, hl⟩
              cases this
            constructor
            · rintro rfl
              have := Classical.not_not.mp fun hne => hnb ⟨hnl, hne⟩
              omega
            · intro hc
              subst hc
              cases e with
              | overflow => exact absurd (Nat.zero_lt_succ 2) hnb
              | small n =>
                have := Classical.not_not.mp fun hne => hnb ⟨hnl, hne⟩
                rw [this]

/-- **C87.**  The metadata is a pool without damaged nodes.  Whatever the size of the data device, whichever discards fail and however the command ends, no byte of a data block that a thin device maps is
discarded, and nothing beyond the pool or the end of the data device; as long as there are at most 255 thin devices or fewer than 256 leaves map the block (`command_256_refuted`). -/
theorem command_safe {E : Nat} (hE : 0 < E) (hrd : SMC.Entries E d.bm) (I : P.Intact d sb unpackRoot) (w : Wr)
    (hmin : ∀ y c, y ∈ P.N → c ∈ TChk.kids d.low y → TChk.MIN_ENTRIES ≤ TChk.nEnt d.low c) {fuel : Nat} (hf : d.nr ≤ fuel)
    (bot : List Nat → Sm → Sm → Sm × Sm × Option Sums) (hbot : ∀ roots msm dsm, TChk.Bottom d.low false fuel roots msm dsm (bot roots msm dsm))
    (hbs : 0 < sb.data_block_size) (hsz : P.droot.nr_blocks * (sb.data_block_size * 512) < 2 ^ 64) (dd : DataDev) (i : Nat)
    (hd : Discarded (command E unpackRoot bot w d dd).discards i) :
    (P.roots.length ≤ 255 ∨ P.dataRefs d (i / (sb.data_block_size * 512)) < 256 → ¬ Mapped d P.roots (i / (sb.data_block_size * 512))) ∧
      i / (sb.data_block_size * 512) < P.droot.nr_blocks ∧ ∃ size, dd.size = some size ∧ i < size := by
  by_cases hok : (TChk.check unpackRoot bot w checkOpts d).2 = .ok
  · rcases command_trims hE hrd I w hmin hf bot hbot hbs hsz dd hok with ⟨h, -⟩ | ⟨ds, size, h1, h2, h3, h4, -, h6⟩
    · rw [h] at hd
      obtain ⟨r, hr, -⟩ := hd
      cases hr
    · obtain ⟨r, hr, q1, q2⟩ := hd
      have hr' := h4 r hr
      have hb := h3 r hr'
      have hlt : i < P.droot.nr_blocks * (sb.data_block_size * 512) := by omega
      refine ⟨fun h => ((h6 i h).mp ⟨r, hr', q1, q2⟩).2, (Nat.div_lt_iff_lt_mul (by omega)).mpr hlt, size, h1, by omega⟩
  · rw [(command_stops E bot w d dd hok).1] at hd
    obtain ⟨r, hr, -⟩ := hd
    cases hr

/-- **C87.**  If the command succeeds, every byte of every data block that no thin device maps has been discarded, too. -/
theorem command_exact {E : Nat} (hE : 0 < E) (hrd : SMC.Entries E d.bm) (I : P.Intact d sb unpackRoot) (w : Wr)
    (hmin : ∀ y c, y ∈ P.N → c ∈ TChk.kids d.low y → TChk.MIN_ENTRIES ≤ TChk.nEnt d.low c) {fuel : Nat} (hf : d.nr ≤ fuel)
    (bot : List Nat → Sm → Sm → Sm × Sm × Option Sums) (hbot : ∀ roots msm dsm, TChk.Bottom d.low false fuel roots msm dsm (bot roots msm dsm))
    (hbs : 0 < sb.data_block_size) (hsz : P.droot.nr_blocks * (sb.data_block_size * 512) < 2 ^ 64) (dd : DataDev)
    (hfew : P.roots.length ≤ 255 ∨ ∀ x, P.dataRefs d x < 256)
    (hok : (command E unpackRoot bot w d dd).code = .ok) (i : Nat) :
    Discarded (command E unpackRoot bot w d dd).discards i ↔
      i / (sb.data_block_size * 512) < P.droot.nr_blocks ∧ ¬ Mapped d P.roots (i / (sb.data_block_size * 512)) := by
  by_cases hc : (TChk.check unpackRoot bot w checkOpts d).2 = .ok
  · rcases command_trims hE hrd I w hmin hf bot hbot hbs hsz dd hc with ⟨-, h⟩ | ⟨ds, size, -, -, -, -, h5, h6⟩
    · exact absurd hok h
    · rw [h5 hok]
      exact h6 i (hfew.imp id fun h => h _)
  · rw [(command_stops E bot w d dd hc).2] at hok
    split at hok <;> cases hok

/-! ## Unreadable bitmaps -/

theorem readRows_unreadable {bm : Nat → Option (Bool × List BE)} : ∀ (ies : List IndexEntry), (∃ ie ∈ ies, bm ie.blocknr = none) → readRows bm ies = none
  | [], h => by obtain ⟨_, h, _⟩ := h; cases h
  | ie :: ies, h => by
    obtain ⟨x, hx, hn⟩ := h
    unfold readRows
    rcases List.mem_cons.mp hx with rfl | hx
    · rw [hn]
    · rw [readRows_unreadable ies ⟨x, hx, hn⟩]
      cases bm ie.blocknr <;> rfl

/-- **C87**: if a bitmap of the data space map cannot be read, nothing is discarded and the trimming fails, whatever the check has said. -/
theorem trimData_unreadable {E : Nat} {dd : DataDev} {root : SMRoot} (h : unpackRoot sb.data_sm_root = some root) {m : List (Nat × SMD.SVal)}
    (hm : (TChk.toMap d d.rdn root.bitmap_root (TChk.restricted d.nr)).1 = some m) (hu : ∃ ie ∈ SMC.indexValues m, d.bm ie.blocknr = none) :
    trimData E unpackRoot d sb dd = (.err, []) := by
  unfold trimData readBitmaps
  rw [h]
  simp only
  rw [hm]
  simp only
  rw [readRows_unreadable _ hu]
  cases dd.size with
  | none => rfl
  | some size =>
    simp only
    split <;> rfl

end Verif.TrimTool
