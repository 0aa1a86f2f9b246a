import Verif.Prop.RepairRoots
import Verif.Prop.Records

/-!
# C46: the superblock `thin_repair` works from
-/

namespace Verif.Rep

theorem root_written {n : Nat} (hn : n < 2 ^ 64) {bs : Bytes} (h : packRoot ⟨n, 0, 0, 0⟩ 128 = some bs) : (SMRoot.unpack bs).map (·.1.nr_blocks) = some n := by
  unfold packRoot at h
  by_cases hc : (SMRoot.pack ⟨n, 0, 0, 0⟩).length ≤ 128
  · rw [if_pos hc] at h
    cases h
    have := (smRoot_roundtrip ⟨n, 0, 0, 0⟩ ⟨hn, Nat.two_pow_pos 64, Nat.two_pow_pos 64, Nat.two_pow_pos 64⟩).2 (List.replicate (128 - (SMRoot.pack ⟨n, 0, 0, 0⟩).length) 0)
    simp only [smRootCodec] at this
    rw [this]
    rfl
  · rw [if_neg hc] at h; cases h

theorem checkBs_some {bs bs' : Nat} (h : checkBs bs = some bs') : bs' = bs ∧ 128 ≤ bs ∧ bs ≤ 2097152 ∧ bs % 128 = 0 := by
  unfold checkBs at h
  by_cases hc : ¬ (128 ≤ bs ∧ bs ≤ 2097152) ∨ bs &&& 0x7f ≠ 0
  · rw [if_pos hc] at h; cases h
  · rw [if_neg hc] at h
    cases h
    have h1 : 128 ≤ bs ∧ bs ≤ 2097152 := Classical.byContradiction fun h => hc (Or.inl h)
    have h2 : bs &&& 0x7f = 0 := Classical.byContradiction fun h => hc (Or.inr h)
    refine ⟨rfl, h1.1, h1.2, ?_⟩
    rw [show (0x7f : Nat) = 2 ^ 7 - 1 from rfl, Nat.and_two_pow_sub_one_eq_mod] at h2
    exact h2

theorem filter_max {o : Option Nat} {n : Nat} : n ≤ (o.filter fun t => decide (t > n)).getD n ∧ (∀ t, o = some t → t ≤ (o.filter fun t => decide (t > n)).getD n) ∧
    ((o.filter fun t => decide (t > n)).getD n = n ∨ o = some ((o.filter fun t => decide (t > n)).getD n)) := by
  cases o with
  | none => exact ⟨Nat.le_refl _, fun t h => (by cases h), Or.inl rfl⟩
  | some t =>
    by_cases h : t > n
    · simp only [Option.filter_some, h, decide_true, if_true, Option.getD_some]
      exact ⟨Nat.le_of_lt h, fun x hx => (by cases hx; exact Nat.le_refl _), Or.inr (by simp)⟩
    · simp only [Option.filter_some, h, decide_false]
      simp only [Bool.false_eq_true, if_false, Option.getD_none]
      exact ⟨Nat.le_refl _, fun x hx => (by cases hx; omega), Or.inl trivial⟩

/-- what holds of every rebuilt superblock: time, transaction, data block size, number of data blocks -/
structure Rebuilt (f : Found) (ref : Option Thin.Superblock) (o : Overrides) (time tid bs nrData : Nat) : Prop where
  time : f.time ≤ time ∧ ∀ sb, ref = some sb → sb.time ≤ time
  tid : f.tid ≤ tid ∧ ∀ t, o.tid.or (ref.map (·.transaction_id)) = some t → t ≤ tid
  bs : o.blockSize.or (ref.map (·.data_block_size)) = some bs ∧ 128 ≤ bs ∧ bs ≤ 2097152 ∧ bs % 128 = 0
  nrData : f.nrData ≤ nrData ∧ (∀ n, o.nrData.or (ref.bind refNr) = some n → n ≤ nrData) ∧ (nrData = f.nrData ∨ o.nrData.or (ref.bind refNr) = some nrData)

/-- C46: a superblock rebuilt around roots on disk has exactly these roots, no snapshot and no needs-check flag, a valid data block size (the override, else the
reference's), and transaction, time and number of data blocks below neither those of the trees nor the reference's (or the override).  `hn`: the numbers of blocks have 64 bits. -/
theorem rebuild_onDisk {f : Found} {ref : Option Thin.Superblock} {o : Overrides} {r : ThinSb} {m d : Nat} (h : rebuild f ref o = some r) (hf : f.devices = .onDisk m d)
    (hn : f.nrData < 2 ^ 64) (hn' : ∀ n, o.nrData.or (ref.bind refNr) = some n → n < 2 ^ 64) :
    ∃ sb n, r = .onDisk sb ∧ sb.mapping_root = m ∧ sb.details_root = d ∧ sb.needs_check = false ∧ sb.metadata_snap = 0 ∧ sb.version = 2 ∧
      refNr sb = some n ∧ Rebuilt f ref o sb.time sb.transaction_id sb.data_block_size n := by
  unfold rebuild at h
  cases hb : (o.blockSize.or (ref.map (·.data_block_size))).bind checkBs with
  | none => rw [hb] at h; cases h
  | some bs =>
    rw [hb] at h
    simp only at h
    cases hr : packRoot ⟨((o.nrData.or (ref.bind refNr)).filter fun n => decide (n > f.nrData)).getD f.nrData, 0, 0, 0⟩ 128 with
    | none => rw [hr] at h; cases h
    | some root =>
      rw [hr, hf] at h
      simp only [Option.some.injEq] at h
      obtain ⟨x, h1, h2⟩ := Option.bind_eq_some_iff.mp hb
      obtain ⟨rfl, b1, b2, b3⟩ := checkBs_some h2
      have hnr := filter_max (o := o.nrData.or (ref.bind refNr)) (n := f.nrData)
      have hlt : ((o.nrData.or (ref.bind refNr)).filter fun n => decide (n > f.nrData)).getD f.nrData < 2 ^ 64 := by
        rcases hnr.2.2 with e | e
        · rw [e]; exact hn
        · exact hn' _ e
      subst h
      refine ⟨_, _, rfl, rfl, rfl, rfl, rfl, rfl, root_written hlt hr, ⟨?_, ?_⟩, ?_, ⟨h1, b1, b2, b3⟩, hnr⟩
      · cases ref with
        | none => exact Nat.le_refl _
        | some sb => exact Nat.le_max_right _ _
      · intro sb e
        subst e
        exact Nat.le_max_left _ _
      · have := filter_max (o := o.tid.or (ref.map (·.transaction_id))) (n := f.tid)
        exact ⟨this.1, this.2.1⟩

/-- C46: without details, the superblock in memory lists the devices of the tree found, each with its number of mappings, the transaction before the next and the time
of the roots; the same holds of its other fields. -/
theorem rebuild_inCore {f : Found} {ref : Option Thin.Superblock} {o : Overrides} {r : ThinSb} {devs : List (Nat × Nat × Nat)} (h : rebuild f ref o = some r) (hf : f.devices = .inCore devs) :
    ∃ sb, r = .inCore sb ∧ sb.devices = devs.map (fun d => (d.1, d.2.1, ⟨d.2.2, sb.tid - 1, f.time, f.time⟩)) ∧ sb.needsCheck = false ∧ sb.version = 2 ∧
      Rebuilt f ref o sb.time sb.tid sb.blockSize sb.nrData := by
  unfold rebuild at h
  cases hb : (o.blockSize.or (ref.map (·.data_block_size))).bind checkBs with
  | none => rw [hb] at h; cases h
  | some bs =>
    rw [hb] at h
    simp only at h
    cases hr : packRoot ⟨((o.nrData.or (ref.bind refNr)).filter fun n => decide (n > f.nrData)).getD f.nrData, 0, 0, 0⟩ 128 with
    | none => rw [hr] at h; cases h
    | some root =>
      rw [hr, hf] at h
      simp only [Option.some.injEq] at h
      obtain ⟨x, h1, h2⟩ := Option.bind_eq_some_iff.mp hb
      obtain ⟨rfl, b1, b2, b3⟩ := checkBs_some h2
      subst h
      refine ⟨_, rfl, rfl, rfl, rfl, ⟨?_, ?_⟩, ?_, ⟨h1, b1, b2, b3⟩, filter_max (o := o.nrData.or (ref.bind refNr)) (n := f.nrData)⟩
      · cases ref with
        | none => exact Nat.le_refl _
        | some sb => exact Nat.le_max_right _ _
      · intro sb e
        subst e
        exact Nat.le_max_left _ _
      · have := filter_max (o := o.tid.or (ref.map (·.transaction_id))) (n := f.tid)
        exact ⟨this.1, this.2.1⟩

/-- C46: a rebuild needs a data block size: from the override or the reference -/
theorem rebuild_fails {f : Found} {ref : Option Thin.Superblock} {o : Overrides} (h : o.blockSize.or (ref.map (·.data_block_size)) = none) : rebuild f ref o = none := by
  unfold rebuild
  rw [h]
  rfl

/-- C46: overrides of an intact superblock change only the three fields, and transaction and number of data blocks only upwards. -/
theorem override_spec {sb sb' : Thin.Superblock} {o : Overrides} (h : override sb o = some sb') :
    sb'.mapping_root = sb.mapping_root ∧ sb'.details_root = sb.details_root ∧ sb'.time = sb.time ∧ sb'.needs_check = sb.needs_check ∧ sb'.metadata_snap = sb.metadata_snap ∧
      sb'.metadata_sm_root = sb.metadata_sm_root ∧ sb'.version = sb.version ∧ sb'.transaction_id = max (o.tid.getD 0) sb.transaction_id ∧
      sb'.data_block_size = o.blockSize.getD sb.data_block_size ∧ (o.nrData = none → sb'.data_sm_root = sb.data_sm_root) := by
  unfold override at h
  obtain ⟨tid, bs, nd⟩ := o
  cases nd with
  | none =>
    simp only [Option.some.injEq] at h
    subst h
    cases tid <;> cases bs <;> simp
  | some n =>
    simp only at h
    cases tid with
    | none =>
      cases bs with
      | none =>
        simp only at h
        cases hu : SMRoot.unpack sb.data_sm_root with
        | none => rw [hu] at h; cases h
        | some p =>
          rw [hu] at h
          obtain ⟨r, -, rfl⟩ := Option.map_eq_some_iff.mp h
          simp
      | some b =>
        simp only at h
        cases hu : SMRoot.unpack sb.data_sm_root with
        | none => rw [hu] at h; cases h
        | some p =>
          rw [hu] at h
          obtain ⟨r, -, rfl⟩ := Option.map_eq_some_iff.mp h
          simp
    | some t =>
      cases bs with
      | none =>
        simp only at h
        cases hu : SMRoot.unpack sb.data_sm_root with
        | none => rw [hu] at h; cases h
        | some p =>
          rw [hu] at h
          obtain ⟨r, -, rfl⟩ := Option.map_eq_some_iff.mp h
          simp
      | some b =>
        simp only at h
        cases hu : SMRoot.unpack sb.data_sm_root with
        | none => rw [hu] at h; cases h
        | some p =>
          rw [hu] at h
          obtain ⟨r, -, rfl⟩ := Option.map_eq_some_iff.mp h
          simp

/-- C46: an intact superblock is used (with the overrides) exactly if its pair of roots was found; otherwise the first roots found, the youngest, are used. -/
theorem readOrRebuild_spec {f : Found} {fs : List Found} {sb : Option Thin.Superblock} {o : Overrides} {r : ThinSb} (h : readOrRebuild (f :: fs) sb o = some r) :
    (∃ s s', sb = some s ∧ (∃ g ∈ f :: fs, g.devices = .onDisk s.mapping_root s.details_root) ∧ override s o = some s' ∧ r = .onDisk s') ∨
    ∃ ref, rebuild f ref o = some r ∧ (sb = none → ref = none) ∧
      ∀ s, sb = some s → (∃ g ∈ f :: fs, g.devices = .onDisk s.mapping_root s.details_root) ∧ override s o = none ∧ ref = none ∨
        (¬ ∃ g ∈ f :: fs, g.devices = .onDisk s.mapping_root s.details_root) ∧ ref = some s := by
  have hcons : ∀ s : Thin.Superblock, consistentSb s (f :: fs) = true ↔ ∃ g ∈ f :: fs, g.devices = .onDisk s.mapping_root s.details_root := by
    intro s
    unfold consistentSb
    rw [List.any_eq_true]
    constructor
    · rintro ⟨g, hg, h⟩
      refine ⟨g, hg, ?_⟩
      cases hd : g.devices with
      | inCore _ => rw [hd] at h; cases h
      | onDisk m d =>
        rw [hd] at h
        obtain ⟨rfl, rfl⟩ := of_decide_eq_true h
        rfl
    · rintro ⟨g, hg, h⟩
      exact ⟨g, hg, by rw [h]; simp⟩
  unfold readOrRebuild at h
  cases sb with
  | none => exact Or.inr ⟨none, h, fun _ => rfl, fun s e => by cases e⟩
  | some s =>
    simp only at h
    by_cases hc : consistentSb s (f :: fs) = true
    · rw [if_pos hc] at h
      cases ho : override s o with
      | none =>
        rw [ho] at h
        exact Or.inr ⟨none, h, fun e => (by cases e), fun s' e => (by cases e; exact Or.inl ⟨(hcons _).mp hc, ho, rfl⟩)⟩
      | some s' =>
        rw [ho] at h
        cases h
        exact Or.inl ⟨s, s', rfl, (hcons s).mp hc, ho, rfl⟩
    · rw [if_neg hc] at h
      exact Or.inr ⟨some s, h, fun e => (by cases e), fun s' e => (by cases e; exact Or.inr ⟨fun hh => hc ((hcons _).mpr hh), rfl⟩)⟩

/-- an override need not be a valid data block size if the superblock is intact (it is checked when the superblock is rebuilt) -/
theorem override_size_refuted : ¬ ∀ (f : Found) (sb sb' : Thin.Superblock) (o : Overrides), readOrRebuild [f] (some sb) o = some (.onDisk sb') → sb'.data_block_size % 128 = 0 := by
  intro h
  have := h ⟨.onDisk 1 2, 0, 0, 0⟩ ⟨false, 0, 2, 0, 0, 0, [], [], 1, 2, 128, 0⟩ ⟨false, 0, 2, 0, 0, 0, [], [], 1, 2, 100, 0⟩ ⟨none, some 100, none⟩ rfl
  exact absurd this (by decide)

/-! ## A concrete pool, and pools that are lost -/

/-- a pool with one device of two mappings: tree of devices at 1, details at 2, mappings at 3 -/
def demoRd (b : Nat) : Option Raw :=
  if b = 1 then some (.leaf 1 [(1, 3)])
  else if b = 2 then some (.details 2 [(1, ⟨2, 4, 6, 6⟩)])
  else if b = 3 then some (.leaf 3 [(0, 20 * 2 ^ 24 + 5), (1, 21 * 2 ^ 24 + 6)])
  else none

theorem demo_wf : WF demoRd ∧ InPlace demoRd := by
  have hcase : ∀ b r, demoRd b = some r → (b = 1 ∧ r = .leaf 1 [(1, 3)]) ∨ (b = 2 ∧ r = .details 2 [(1, ⟨2, 4, 6, 6⟩)]) ∨
      (b = 3 ∧ r = .leaf 3 [(0, 20 * 2 ^ 24 + 5), (1, 21 * 2 ^ 24 + 6)]) := by
    intro b r h
    unfold demoRd at h
    by_cases h1 : b = 1
    · rw [if_pos h1] at h; cases h; exact Or.inl ⟨h1, rfl⟩
    · rw [if_neg h1] at h
      by_cases h2 : b = 2
      · rw [if_pos h2] at h; cases h; exact Or.inr (Or.inl ⟨h2, rfl⟩)
      · rw [if_neg h2] at h
        by_cases h3 : b = 3
        · rw [if_pos h3] at h; cases h; exact Or.inr (Or.inr ⟨h3, rfl⟩)
        · rw [if_neg h3] at h; cases h
  refine ⟨⟨fun b blk es h => ?_, fun b blk es h => ?_⟩, fun b r h => ?_⟩
  · rcases hcase b _ h with ⟨-, e⟩ | ⟨-, e⟩ | ⟨-, e⟩ <;> cases e <;> simp
  · rcases hcase b _ h with ⟨-, e⟩ | ⟨-, e⟩ | ⟨-, e⟩ <;> cases e; simp
  · rcases hcase b _ h with ⟨rfl, rfl⟩ | ⟨rfl, rfl⟩ | ⟨rfl, rfl⟩ <;> rfl

/-- the demo tree of devices -/
def demoDevs : BT.Tree Nat 0 := (1, [(1, 3)])

/-- the demo details -/
def demoDets : BT.Tree DeviceDetail 0 := (2, [(1, ⟨2, 4, 6, 6⟩)])

/-- the demo mappings -/
def demoMaps : BT.Tree Nat 0 := (3, [(0, 20 * 2 ^ 24 + 5), (1, 21 * 2 ^ 24 + 6)])

theorem demo_healthy : Healthy demoRd 8 (h := 0) (h' := 0) demoDevs (fun _ => [(0, 20 * 2 ^ 24 + 5), (1, 21 * 2 ^ 24 + 6)]) demoDets where
  devs := ⟨rfl, by simp [demoDevs, BT.Tree.Ordered, BT.Chain, BT.Below], Or.inl rfl, by intro b hb; rw [List.mem_singleton.mp hb]; decide⟩
  top := by
    intro b es blk hb hr
    rw [List.mem_singleton.mp hb] at hr
    cases hr
    rfl
  details := ⟨rfl, by simp [demoDets, BT.Tree.Ordered, BT.Chain, BT.Below], Or.inl rfl, by intro b hb; rw [List.mem_singleton.mp hb]; decide⟩
  same := rfl
  trees := by
    intro e he
    rw [List.mem_singleton.mp he]
    refine ⟨0, demoMaps, ⟨rfl, by simp [demoMaps, BT.Tree.Ordered, BT.Chain, BT.Below], Or.inl rfl, by intro b hb; rw [List.mem_singleton.mp hb]; decide⟩, rfl, rfl, ?_⟩
    intro b es blk hb hr
    rw [List.mem_singleton.mp hb] at hr
    cases hr
    rfl
  count := rfl

theorem demo_root (b : Nat) : IsRoot demoRd 8 b := by
  intro p blk ch i hp
  exfalso
  unfold demoRd at hp
  by_cases h1 : p = 1
  · rw [if_pos h1] at hp; cases hp
  · rw [if_neg h1] at hp
    by_cases h2 : p = 2
    · rw [if_pos h2] at hp; cases hp
    · rw [if_neg h2] at hp
      by_cases h3 : p = 3
      · rw [if_pos h3] at hp; cases hp
      · rw [if_neg h3] at hp; cases hp

/-- the demo pool meets the hypotheses of `findRoots_pairs` -/
theorem demo_compat : ∃ d t, Compat demoRd 8 d t ∧ d.b = 1 ∧ t.b = 2 :=
  healthy_compat demo_wf.1 demo_wf.2 demo_healthy (demo_root _) (demo_root _)

/-- the scan of the demo pool succeeds -/
theorem demo_collect : ∃ s, collect demoRd 8 = .ok s := ⟨_, rfl⟩

/-- a rebuild of its superblock -/
theorem demo_rebuild : ∃ r, rebuild ⟨.onDisk 1 2, 6, 5, 22⟩ none ⟨none, some 128, none⟩ = some r := ⟨_, rfl⟩

/-- A healthy pool whose only device maps only data block 0: its mapping leaf looks like a list of roots (all values are small), so nothing is found at the root of its
tree of devices. -/
theorem healthy_lost_refuted : ¬ ∀ (rd : Nat → Option Raw) (nr b blk dev root rblk : Nat) (es : List (Nat × Nat)), WF rd → InPlace rd → rd b = some (.leaf blk [(dev, root)]) →
    rd root = some (.leaf rblk es) → b < nr → root < nr → ∃ i, Valid rd nr b (.dev i) := by
  intro h
  have hr : ∀ b r, (if b = 1 then some (Raw.leaf 1 [(1, 3)]) else if b = 3 then some (.leaf 3 [(0, 5)]) else none) = some r → (b = 1 ∧ r = .leaf 1 [(1, 3)]) ∨ (b = 3 ∧ r = .leaf 3 [(0, 5)]) := by
    intro b r h
    by_cases h1 : b = 1
    · rw [if_pos h1] at h; cases h; exact Or.inl ⟨h1, rfl⟩
    · rw [if_neg h1] at h
      by_cases h3 : b = 3
      · rw [if_pos h3] at h; cases h; exact Or.inr ⟨h3, rfl⟩
      · rw [if_neg h3] at h; cases h
  obtain ⟨i, hi⟩ := h (fun b => if b = 1 then some (.leaf 1 [(1, 3)]) else if b = 3 then some (.leaf 3 [(0, 5)]) else none) 8 1 1 1 3 3 [(0, 5)]
    ⟨fun b blk es h => (by rcases hr b _ h with ⟨-, e⟩ | ⟨-, e⟩ <;> cases e <;> simp), fun b blk es h => (by rcases hr b _ h with ⟨-, e⟩ | ⟨-, e⟩ <;> cases e)⟩
    (fun b r h => by rcases hr b _ h with ⟨rfl, rfl⟩ | ⟨rfl, rfl⟩ <;> rfl) rfl rfl (by decide) (by decide)
  obtain ⟨j, hj⟩ := hi.kid (c := 3) ⟨_, rfl, by simp [kidsOf, maybeTop]⟩
  obtain ⟨k, hk⟩ := hj.kid (c := 5) ⟨_, rfl, by simp [kidsOf, maybeTop]⟩
  obtain ⟨r, h5, -⟩ := valid_b hk
  cases h5

/-- a leaf value just beyond the device is taken for a root: the process ends -/
theorem collect_panics_refuted : ¬ ∀ rd nr, ∃ s, collect rd nr = .ok s := by
  intro h
  obtain ⟨s, hs⟩ := h (fun b => if b = 1 then some (.leaf 1 [(0, 2)]) else none) 2
  cases hs

/-- the block number of a root is believed to be the one in its header: a stale copy leads to a block that is no node at all -/
theorem root_location_refuted : ¬ ∀ rd nr s d, collect rd nr = .ok s → d ∈ detRoots nr s → ∃ r, rd d.b = some r := by
  intro h
  have hs : ∃ s, collect (fun b => if b = 1 then some (.details 7 []) else none) 2 = .ok s ∧ detLeaf 7 [] ∈ detRoots 2 s := ⟨_, rfl, List.mem_singleton.mpr rfl⟩
  obtain ⟨s, h1, h2⟩ := hs
  obtain ⟨r, hr⟩ := h _ 2 s _ h1 h2
  cases hr

end Verif.Rep
