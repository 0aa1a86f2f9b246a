import Verif.Prop.RepairFind

/-!
# C46: the roots and the superblock `thin_repair` uses
-/

namespace Verif.Rep

variable {rd : Nat → Option Raw} {nr : Nat}

/-- every node lies where its header says -/
def InPlace (rd : Nat → Option Raw) : Prop := ∀ b r, rd b = some r → r.blk = b

/-- no internal node of a well-formed tree points at `b` -/
def IsRoot (rd : Nat → Option Raw) (nr b : Nat) : Prop := ∀ p blk ch i, rd p = some (.internal blk ch) → Valid rd nr p i → b ∉ ch.map (·.2)

/-- A tree of devices and a details tree, neither of them part of a bigger one, with the same number of mappings and the same devices. -/
def Compat (rd : Nat → Option Raw) (nr : Nat) (d : DevInfo) (t : DetInfo) : Prop :=
  Valid rd nr d.b (.dev d) ∧ IsRoot rd nr d.b ∧ Valid rd nr t.b (.details t) ∧ IsRoot rd nr t.b ∧ d.nrMappings = t.nrMappings ∧ identical rd nr d.b t.b = true

/-- the block number of a summary is that of the root's header -/
theorem valid_b {b : Nat} {i : Info} (h : Valid rd nr b i) : ∃ r, rd b = some r ∧ i.b = r.blk := by
  cases h with
  | internal _ blk k c ch kid _ hb hr hk hf =>
    refine ⟨_, hr, ?_⟩
    have hkeep : ∀ (l : List Info) (x y : Info), l.foldlM pushKid x = some y → y.b = x.b := by
      intro l
      induction l with
      | nil => intro x y h; simp only [List.foldlM_nil] at h; cases h; rfl
      | cons a l ih =>
        intro x y h
        rw [List.foldlM_cons] at h
        cases hp : pushKid x a with
        | none => rw [hp] at h; cases h
        | some z => rw [hp] at h; rw [ih z y h, (pushKid_some hp).2.2.2.2.2.2]
    rw [hkeep _ _ _ hf]
    cases kid c <;> rfl
  | top _ blk es kid _ hb hr ht hk hf =>
    refine ⟨_, hr, ?_⟩
    have hkeep : ∀ (l : List Info) (x : DevInfo) (y : Info), l.foldlM pushDev (.dev x) = some y → y.b = x.b := by
      intro l
      induction l with
      | nil => intro x y h; simp only [List.foldlM_nil] at h; cases h; rfl
      | cons a l ih =>
        intro x y h
        rw [List.foldlM_cons] at h
        cases a with
        | dev _ => simp [pushDev] at h
        | details _ => simp [pushDev] at h
        | mappings c => exact (ih _ y (show l.foldlM pushDev (.dev _) = some y from h)).trans rfl
    rw [hkeep _ _ _ hf]
    rfl
  | mappings _ blk es hb hr ht =>
    refine ⟨_, hr, ?_⟩
    have hkeep : ∀ (es : List (Nat × Nat)) (i : MapInfo), (es.foldl (fun i e => { i with
        highest := max (btOf e.2).block i.highest
        tc := bump (btOf e.2).time 1 i.tc
        age := max i.age (btOf e.2).time }) i).b = i.b := by
      intro es
      induction es with
      | nil => intro i; rfl
      | cons e es ih => intro i; rw [List.foldl_cons, ih]
    exact hkeep es _
  | details _ blk es hb hr =>
    refine ⟨_, hr, ?_⟩
    have hkeep : ∀ (es : List (Nat × DeviceDetail)) (i : DetInfo), (es.foldl (fun i e => { i with
        nrMappings := (i.nrMappings + e.2.mapped_blocks) % 2 ^ 64
        maxTid := max i.maxTid e.2.transaction_id
        age := max (max i.age e.2.creation_time) e.2.snapshotted_time }) i).b = i.b := by
      intro es
      induction es with
      | nil => intro i; rfl
      | cons e es ih => intro i; rw [List.foldl_cons, ih]
    exact hkeep es _

theorem valid_loc (hl : InPlace rd) {b : Nat} {i : Info} (h : Valid rd nr b i) : i.b = b := by
  obtain ⟨r, h1, h2⟩ := valid_b h
  rw [h2, hl b r h1]

theorem mem_devRoots (hl : InPlace rd) {s : St} (h : collect rd nr = .ok s) (d : DevInfo) : d ∈ devRoots nr s ↔ Valid rd nr d.b (.dev d) ∧ IsRoot rd nr d.b := by
  obtain ⟨h1, h2⟩ := collect_exact h
  unfold devRoots
  rw [List.mem_filterMap]
  constructor
  · rintro ⟨b, -, hb⟩
    cases hr : s.referenced b with
    | true => rw [hr] at hb; cases hb
    | false =>
      rw [hr] at hb
      simp only [Bool.false_eq_true, if_false] at hb
      cases hi : s.infos b with
      | none => rw [hi] at hb; cases hb
      | some i =>
        rw [hi] at hb
        cases i with
        | mappings _ => cases hb
        | details _ => cases hb
        | dev i =>
          cases hb
          have hv := (h1 b _).mp hi
          have hb : d.b = b := valid_loc hl hv
          rw [hb]
          refine ⟨hv, fun p blk ch j hp hvp hm => ?_⟩
          have := (h2 b).mpr ⟨p, blk, ch, j, hp, hvp, hm⟩
          rw [hr] at this
          cases this
  · rintro ⟨hv, hroot⟩
    refine ⟨d.b, List.mem_range.mpr hv.lt, ?_⟩
    have hr : s.referenced d.b = false := by
      cases hr : s.referenced d.b with
      | false => rfl
      | true =>
        obtain ⟨p, blk, ch, j, a1, a2, a3⟩ := (h2 _).mp hr
        exact absurd a3 (hroot p blk ch j a1 a2)
    rw [hr, (h1 _ _).mpr hv]
    rfl

theorem mem_detRoots (hl : InPlace rd) {s : St} (h : collect rd nr = .ok s) (d : DetInfo) : d ∈ detRoots nr s ↔ Valid rd nr d.b (.details d) ∧ IsRoot rd nr d.b := by
  obtain ⟨h1, h2⟩ := collect_exact h
  unfold detRoots
  rw [List.mem_filterMap]
  constructor
  · rintro ⟨b, -, hb⟩
    cases hr : s.referenced b with
    | true => rw [hr] at hb; cases hb
    | false =>
      rw [hr] at hb
      simp only [Bool.false_eq_true, if_false] at hb
      cases hi : s.infos b with
      | none => rw [hi] at hb; cases hb
      | some i =>
        rw [hi] at hb
        cases i with
        | mappings _ => cases hb
        | dev _ => cases hb
        | details i =>
          cases hb
          have hv := (h1 b _).mp hi
          have hb : d.b = b := valid_loc hl hv
          rw [hb]
          refine ⟨hv, fun p blk ch j hp hvp hm => ?_⟩
          have := (h2 b).mpr ⟨p, blk, ch, j, hp, hvp, hm⟩
          rw [hr] at this
          cases this
  · rintro ⟨hv, hroot⟩
    refine ⟨d.b, List.mem_range.mpr hv.lt, ?_⟩
    have hr : s.referenced d.b = false := by
      cases hr : s.referenced d.b with
      | false => rfl
      | true =>
        obtain ⟨p, blk, ch, j, a1, a2, a3⟩ := (h2 _).mp hr
        exact absurd a3 (hroot p blk ch j a1 a2)
    rw [hr, (h1 _ _).mpr hv]
    rfl

theorem identical_nr (hw : WF rd) {d : DevInfo} {t : DetInfo} (hd : Valid rd nr d.b (.dev d)) (ht : Valid rd nr t.b (.details t))
    (h : identical rd nr d.b t.b = true) : d.nrDevices = t.nrDevices := by
  obtain ⟨l, l1, l2, l3, -⟩ := valid_dev hw hd
  obtain ⟨m, m1, m2, m3⟩ := valid_details hw ht
  have := congrArg List.length (identical_sound h l1 m1 l2.1 m2.1)
  rw [List.length_map, List.length_map] at this
  rw [l3, m3.nrDevices, this]

/-- the number of mappings with a time -/
def timeCount (ms : List (Nat × Nat)) (t : Nat) : Nat := (ms.filter fun m => (btOf m.2).time = t).length

/-- `a` is younger than `b`: at the latest time at which they differ it has more mappings -/
def Younger (a b : List (Nat × Nat)) : Prop := ∃ t, timeCount b t < timeCount a t ∧ ∀ t', t < t' → timeCount a t' = timeCount b t'

/-- no tree of devices has 2^32 mappings or more -/
def FewMaps (rd : Nat → Option Raw) (nr : Nat) : Prop := ∀ b l, DevTree rd nr (fun _ => True) (fun _ => True) b l → (allMaps l).length < 2 ^ 32

theorem newer_younger (hw : WF rd) (hf : FewMaps rd nr) {d d' : DevInfo} (hd : Valid rd nr d.b (.dev d)) (hd' : Valid rd nr d'.b (.dev d')) :
    ∃ l l', DevTree rd nr (fun _ => True) (fun _ => True) d.b l ∧ DevTree rd nr (fun _ => True) (fun _ => True) d'.b l' ∧ (Newer d'.tc d.tc ↔ Younger (allMaps l') (allMaps l)) := by
  obtain ⟨l, l1, -, -, l4⟩ := valid_dev hw hd
  obtain ⟨l', l1', -, -, l4'⟩ := valid_dev hw hd'
  refine ⟨l, l', l1, l1', ?_⟩
  have e := (l4.ok (hf _ _ l1)).2
  have e' := (l4'.ok (hf _ _ l1')).2
  unfold Newer Younger timeCount
  simp only [e, e']

theorem dev_ok (hw : WF rd) (hf : FewMaps rd nr) {d : DevInfo} (hd : Valid rd nr d.b (.dev d)) : d.tc.Ok := by
  obtain ⟨l, l1, -, -, l4⟩ := valid_dev hw hd
  exact (l4.ok (hf _ _ l1)).1

/-- C46: if there is a compatible pair of roots then `find_roots` succeeds; what it returns are exactly the compatible pairs, with time, transaction and size computed
from their trees; and the first of them is such that no compatible pair has a younger mapping tree.  For every content of the metadata whose nodes lie where their
headers say. -/
theorem findRoots_pairs (hw : WF rd) (hl : InPlace rd) {r : Option (List Found)} (h : FindRoots rd nr r) (hc : ∃ d t, Compat rd nr d t) :
    ∃ f fs, r = some (f :: fs) ∧ (∀ g, g ∈ f :: fs ↔ ∃ d t, Compat rd nr d t ∧ g = toFound d t) ∧
      (FewMaps rd nr → ∃ d t, Compat rd nr d t ∧ f = toFound d t ∧ ∀ d' t', Compat rd nr d' t' →
        ∃ l l', DevTree rd nr (fun _ => True) (fun _ => True) d.b l ∧ DevTree rd nr (fun _ => True) (fun _ => True) d'.b l' ∧ ¬ Younger (allMaps l') (allMaps l)) := by
  obtain ⟨s, devs', pairs, hs, hp, hr⟩ := h
  have hd := mem_devRoots hl hs
  have ht := mem_detRoots hl hs
  obtain ⟨pairs', e, -, hmem, hyoung⟩ := findPairs_exact hp (fun d hdm t htm hi => identical_nr hw ((hd d).mp hdm).1 ((ht t).mp htm).1 hi)
  cases e
  have hmem' : ∀ d t, (d, t) ∈ pairs ↔ Compat rd nr d t := by
    intro d t
    rw [hmem, hd, ht]
    unfold Compat
    constructor
    · rintro ⟨⟨a, b⟩, ⟨c, d⟩, e, f⟩; exact ⟨a, b, c, d, e, f⟩
    · rintro ⟨a, b, c, d, e, f⟩; exact ⟨⟨a, b⟩, ⟨c, d⟩, e, f⟩
  obtain ⟨d0, t0, h0⟩ := hc
  cases pairs with
  | nil => exact absurd ((hmem' d0 t0).mpr h0) (by simp)
  | cons p ps =>
    obtain ⟨d, t⟩ := p
    refine ⟨toFound d t, ps.map (fun p : DevInfo × DetInfo => toFound p.1 p.2), hr, ?_, ?_⟩
    · intro g
      rw [show toFound d t :: ps.map (fun p => toFound p.1 p.2) = ((d, t) :: ps).map fun p => toFound p.1 p.2 from rfl, List.mem_map]
      constructor
      · rintro ⟨⟨d', t'⟩, h1, rfl⟩; exact ⟨d', t', (hmem' d' t').mp h1, rfl⟩
      · rintro ⟨d', t', h1, rfl⟩; exact ⟨(d', t'), (hmem' d' t').mpr h1, rfl⟩
    · intro hf
      have hcd := (hmem' d t).mp (by simp)
      refine ⟨d, t, hcd, rfl, ?_⟩
      intro d' t' hc'
      obtain ⟨l, l', a1, a2, a3⟩ := newer_younger hw hf hcd.1 hc'.1
      refine ⟨l, l', a1, a2, ?_⟩
      rw [← a3]
      have hpw := List.pairwise_cons.mp (hyoung fun x hx => dev_ok hw hf ((hd x).mp hx).1)
      rcases List.mem_cons.mp ((hmem' d' t').mpr hc') with e | e
      · cases e
        rintro ⟨t, h, -⟩
        exact Nat.lt_irrefl _ h
      · exact hpw.1 (d', t') e

/-- C46: what a pair yields: the roots of two trees with the same devices and equal numbers of mappings, a time no earlier than any in them, a transaction beyond
every one in the details, and a number of data blocks beyond every one mapped (as long as they fit into 64 bits). -/
theorem compat_found (hw : WF rd) {d : DevInfo} {t : DetInfo} (h : Compat rd nr d t) : ∃ l l', DevTree rd nr (fun _ => True) (fun _ => True) d.b l ∧
    DetTree rd nr (fun _ => True) t.b l' ∧ l.map (·.dev) = l'.map (·.1) ∧ (l.map (·.dev)).Pairwise (· < ·) ∧
    (allMaps l).length % 2 ^ 64 = (l'.map fun x => x.2.mapped_blocks).sum % 2 ^ 64 ∧ (toFound d t).devices = .onDisk d.b t.b ∧
    (∀ m ∈ allMaps l, (btOf m.2).time ≤ (toFound d t).time) ∧ (∀ x ∈ l', x.2.creation_time ≤ (toFound d t).time ∧ x.2.snapshotted_time ≤ (toFound d t).time) ∧
    ((∀ x ∈ l', x.2.transaction_id < 2 ^ 64 - 1) → ∀ x ∈ l', x.2.transaction_id < (toFound d t).tid) ∧
    ((∀ m ∈ allMaps l, (btOf m.2).block < 2 ^ 64 - 1) → ∀ m ∈ allMaps l, (btOf m.2).block < (toFound d t).nrData) := by
  obtain ⟨h1, -, h2, -, h3, h4⟩ := h
  obtain ⟨l, l1, l2, l3, l4⟩ := valid_dev hw h1
  obtain ⟨m, m1, m2, m3⟩ := valid_details hw h2
  have mx : ∀ (ks : List Nat) (B : Nat), 0 < B → (∀ k ∈ ks, k < B) → maxOf ks < B := by
    intro ks B hB
    induction ks with
    | nil => intro _; exact hB
    | cons x ks ih =>
      intro h
      have := ih fun k hk => h k (by simp [hk])
      have := h x (by simp)
      simp only [maxOf, List.foldr_cons] at *
      omega
  refine ⟨l, m, l1, m1, identical_sound h4 l1 m1 l2.1 m2.1, l2.1, ?_, rfl, ?_, ?_, ?_, ?_⟩
  · rw [← l4.nr, ← m3.nrMappings, h3]
  · intro x hx
    have : (btOf x.2).time ≤ d.age := by rw [l4.age]; exact le_maxOf (List.mem_map.mpr ⟨x, hx, rfl⟩)
    exact Nat.le_trans this (Nat.le_max_left _ _)
  · intro x hx
    have : max x.2.creation_time x.2.snapshotted_time ≤ t.age := by rw [m3.age]; exact le_maxOf (List.mem_map.mpr ⟨x, hx, rfl⟩)
    have : t.age ≤ (toFound d t).time := Nat.le_max_right _ _
    omega
  · intro hlt x hx
    have h5 : x.2.transaction_id ≤ t.maxTid := by rw [m3.maxTid]; exact le_maxOf (List.mem_map.mpr ⟨x, hx, rfl⟩)
    have h6 : t.maxTid < 2 ^ 64 - 1 := by
      rw [m3.maxTid]
      refine mx _ _ (by decide) ?_
      intro k hk
      obtain ⟨y, hy, rfl⟩ := List.mem_map.mp hk
      exact hlt y hy
    show _ < (t.maxTid + 1) % 2 ^ 64
    rw [Nat.mod_eq_of_lt (by omega)]
    omega
  · intro hlt x hx
    have h5 : (btOf x.2).block ≤ d.highest := by rw [l4.highest]; exact le_maxOf (List.mem_map.mpr ⟨x, hx, rfl⟩)
    have h6 : d.highest < 2 ^ 64 - 1 := by
      rw [l4.highest]
      refine mx _ _ (by decide) ?_
      intro k hk
      obtain ⟨y, hy, rfl⟩ := List.mem_map.mp hk
      exact hlt y hy
    show _ < (d.highest + 1) % 2 ^ 64
    rw [Nat.mod_eq_of_lt (by omega)]
    omega

/-- A healthy pool: clean search trees of devices, of the mappings of every device and of the details; the details count the mappings. -/
structure Healthy (rd : Nat → Option Raw) (nr : Nat) {h h' : Nat} (t : BT.Tree Nat h) (maps : Nat → List (Nat × Nat)) (t' : BT.Tree DeviceDetail h') : Prop where
  devs : LW.Clean (rd64 rd true) nr h t
  /-- the values of the leaves are metadata blocks, and there is a device -/
  top : ∀ b es blk, b ∈ t.blocks h → rd b = some (.leaf blk es) → maybeTop nr es = true
  details : LW.Clean (rdDet rd true) nr h' t'
  same : (t.contents h).map (·.1) = (t'.contents h').map (·.1)
  /-- each device has a clean mapping tree; its leaves do not look like a list of roots -/
  trees : ∀ e ∈ t.contents h, ∃ hm, ∃ tm : BT.Tree Nat hm, LW.Clean (rd64 rd true) nr hm tm ∧ tm.blk hm = e.2 ∧ tm.contents hm = maps e.2 ∧
    ∀ b es blk, b ∈ tm.blocks hm → rd b = some (.leaf blk es) → maybeTop nr es = false
  count : ((t.contents h).flatMap fun e => maps e.2).length = ((t'.contents h').map fun x => x.2.mapped_blocks).sum

theorem rd64_int {b : Nat} {ch : List (Nat × Nat)} (h : rd64 rd true b = some (.internal ch)) : ∃ blk, rd b = some (.internal blk ch) := by
  unfold rd64 at h
  cases hr : rd b with
  | none => rw [hr] at h; cases h
  | some r => cases r <;> rw [hr] at h <;> cases h; exact ⟨_, rfl⟩

theorem rd64_leaf {b : Nat} {es : List (Nat × Nat)} (h : rd64 rd true b = some (.leaf es)) : ∃ blk, rd b = some (.leaf blk es) := by
  unfold rd64 at h
  cases hr : rd b with
  | none => rw [hr] at h; cases h
  | some r => cases r <;> rw [hr] at h <;> cases h; exact ⟨_, rfl⟩

theorem rdDet_int {b : Nat} {ch : List (Nat × Nat)} (h : rdDet rd true b = some (.internal ch)) : ∃ blk, rd b = some (.internal blk ch) := by
  unfold rdDet at h
  cases hr : rd b with
  | none => rw [hr] at h; cases h
  | some r => cases r <;> rw [hr] at h <;> cases h; exact ⟨_, rfl⟩

theorem rdDet_leaf {b : Nat} {es : List (Nat × DeviceDetail)} (h : rdDet rd true b = some (.leaf es)) : ∃ blk, rd b = some (.details blk es) := by
  unfold rdDet at h
  cases hr : rd b with
  | none => rw [hr] at h; cases h
  | some r => cases r <;> rw [hr] at h <;> cases h; exact ⟨_, rfl⟩

theorem tree_unique {α : Type} {leafAt : Nat → List α → Prop} {P Q : List α → Prop} (hu : ∀ b l l', leafAt b l → leafAt b l' → l = l')
    (hn : ∀ b l blk ch, leafAt b l → rd b ≠ some (.internal blk ch)) {b : Nat} {l : List α} (h : Tree rd nr leafAt P b l) : ∀ {l'}, Tree rd nr leafAt Q b l' → l = l' := by
  induction h with
  | leaf b l _ hl =>
    intro l' h'
    cases h' with
    | leaf _ _ _ hl' => exact hu b _ _ hl hl'
    | node _ blk ch kid _ hr _ _ _ => exact absurd hr (hn b l _ _ hl)
  | node b blk ch kid _ hr _ _ _ ih =>
    intro l' h'
    cases h' with
    | leaf _ _ _ hl' => exact absurd hr (hn b _ _ _ hl')
    | node _ blk' ch' kid' _ hr' _ hk' _ =>
      rw [hr] at hr'
      cases hr'
      have : ∀ (l : List (Nat × Nat)), (∀ c ∈ l, c ∈ ch) → (l.flatMap fun c => kid c.2) = l.flatMap fun c => kid' c.2 := by
        intro l
        induction l with
        | nil => intro _; rfl
        | cons c l ihl =>
          intro hl
          rw [List.flatMap_cons, List.flatMap_cons, ihl (fun x hx => hl x (by simp [hx])), ih c (hl c (by simp)) (hk' c (hl c (by simp)))]
      exact this ch fun c hc => hc

theorem mapTree_unique {P Q : List (Nat × Nat) → Prop} {b : Nat} {l l' : List (Nat × Nat)} (h : MapTree rd nr P b l) (h' : MapTree rd nr Q b l') : l = l' := by
  refine tree_unique ?_ ?_ h h'
  · rintro b l l' ⟨blk, h1, -⟩ ⟨blk', h2, -⟩
    rw [h1] at h2; cases h2; rfl
  · rintro b l blk ch ⟨blk', h1, -⟩ h2
    rw [h1] at h2; cases h2

theorem detTree_unique {P Q : List (Nat × DeviceDetail) → Prop} {b : Nat} {l l' : List (Nat × DeviceDetail)} (h : DetTree rd nr P b l) (h' : DetTree rd nr Q b l') : l = l' := by
  refine tree_unique ?_ ?_ h h'
  · rintro b l l' ⟨blk, h1⟩ ⟨blk', h2⟩
    rw [h1] at h2; cases h2; rfl
  · rintro b l blk ch ⟨blk', h1⟩ h2
    rw [h1] at h2; cases h2

theorem tree_leaf_imp {α : Type} {leafAt leafAt' : Nat → List α → Prop} {P Q : List α → Prop} (hl : ∀ b l, leafAt b l → leafAt' b l) (hP : ∀ l, P l → Q l) {b : Nat} {l : List α}
    (h : Tree rd nr leafAt P b l) : Tree rd nr leafAt' Q b l := by
  induction h with
  | leaf b l hb h => exact .leaf b l hb (hl b l h)
  | node b blk ch kid hb hr hne _ hP' ih => exact .node b blk ch kid hb hr hne ih fun c hc => hP _ (hP' c hc)

theorem devTree_unique {P P' : List (Nat × Nat) → Prop} {Q Q' : List Device → Prop} {b : Nat} {l l' : List Device} (h : DevTree rd nr P Q b l) (h' : DevTree rd nr P' Q' b l') : l = l' := by
  have w : ∀ {P Q l}, DevTree rd nr P Q b l → DevTree rd nr (fun _ => True) (fun _ => True) b l := by
    intro P Q l h
    refine tree_leaf_imp ?_ (fun _ _ => trivial) h
    rintro b l ⟨blk, h1, h2, h3⟩
    exact ⟨blk, h1, h2, fun d hd => ⟨tree_leaf_imp (fun _ _ h => h) (fun _ _ => trivial) (h3 d hd).1, (h3 d hd).2⟩⟩
  refine tree_unique ?_ ?_ (w h) (w h')
  · rintro b l l' ⟨blk, h1, -, h3⟩ ⟨blk', h2, -, h4⟩
    rw [h1] at h2
    have e : l.map (fun d => (d.dev, d.root)) = l'.map fun d => (d.dev, d.root) := (Raw.leaf.inj (Option.some.inj h2)).2
    clear h1 h2
    induction l generalizing l' with
    | nil =>
      cases l' with
      | nil => rfl
      | cons _ _ => cases e
    | cons d l ih =>
      cases l' with
      | nil => cases e
      | cons d' l' =>
        rw [List.map_cons, List.map_cons, List.cons.injEq] at e
        obtain ⟨e1, e2⟩ := e
        rw [ih l' (fun x hx => h3 x (by simp [hx])) (fun x hx => h4 x (by simp [hx])) e2]
        have h5 := (h3 d (by simp)).1
        have h6 := (h4 d' (by simp)).1
        cases d
        cases d'
        simp only [Prod.mk.injEq] at e1
        obtain ⟨rfl, rfl⟩ := e1
        have h7 := mapTree_unique h5 h6
        simp only at h7
        rw [h7]
  · rintro b l blk ch ⟨blk', h1, -⟩ h2
    rw [h1] at h2; cases h2

/-- the tree of devices of a clean tree whose leaves look like roots of clean mapping trees -/
theorem clean_devTree {h : Nat} {t : BT.Tree Nat h} {maps : Nat → List (Nat × Nat)} (hd : LW.Clean (rd64 rd true) nr h t)
    (htop : ∀ b es blk, b ∈ t.blocks h → rd b = some (.leaf blk es) → maybeTop nr es = true)
    (htrees : ∀ e ∈ t.contents h, ∃ hm, ∃ tm : BT.Tree Nat hm, LW.Clean (rd64 rd true) nr hm tm ∧ tm.blk hm = e.2 ∧ tm.contents hm = maps e.2 ∧
      ∀ b es blk, b ∈ tm.blocks hm → rd b = some (.leaf blk es) → maybeTop nr es = false) :
    DevTree rd nr (· ≠ []) (· ≠ []) (t.blk h) ((t.contents h).map fun e => ⟨e.1, e.2, maps e.2⟩) := by
  have hsub : ∀ b es, b ∈ t.blocks h → rd64 rd true b = some (.leaf es) → ∀ e ∈ es, e ∈ t.contents h := by
    have : ∀ (h : Nat) (t : BT.Tree Nat h) (r : Bool), t.Stored (fun _ b => rd64 rd true b) r h → ∀ b es, b ∈ t.blocks h → rd64 rd true b = some (.leaf es) → ∀ e ∈ es, e ∈ t.contents h := by
      intro h
      induction h with
      | zero =>
        intro t r hs b es hb hrd e he
        rw [List.mem_singleton.mp hb] at hrd
        have hs : rd64 rd true t.1 = some (.leaf t.2) := hs
        rw [hs] at hrd
        cases hrd
        exact he
      | succ h ih =>
        intro t r hs b es hb hrd e he
        obtain ⟨s1, s2⟩ := hs
        rcases List.mem_cons.mp hb with rfl | hb
        · have s1 : rd64 rd true (BT.Tree.blk (h + 1) t) = some (.internal (t.2.map fun c => (c.1, BT.Tree.blk h c.2))) := s1
          have hrd : rd64 rd true (BT.Tree.blk (h + 1) t) = some (.leaf es) := hrd
          rw [s1] at hrd; cases hrd
        · obtain ⟨c, hc, hbc⟩ := List.mem_flatMap.mp hb
          exact List.mem_flatMap.mpr ⟨c, hc, ih c.2 false (s2 c hc) b es hbc hrd e he⟩
    exact this h t true hd.stored
  refine clean_tree (mem := rd64 rd true) (leafAt := devLeafAt rd nr (· ≠ [])) (fun e : Nat × Nat => (⟨e.1, e.2, maps e.2⟩ : Device)) (fun b ch => rd64_int) h t true hd.stored hd.noEmpty hd.bound ?_
  intro b es hb hrd
  obtain ⟨blk, hrd'⟩ := rd64_leaf hrd
  have e1 : (es.map fun e => (⟨e.1, e.2, maps e.2⟩ : Device)).map (fun d => (d.dev, d.root)) = es := by
    rw [List.map_map]
    conv => rhs; rw [← List.map_id es]
    exact List.map_congr_left fun e _ => rfl
  refine ⟨blk, by rw [e1]; exact hrd', by rw [e1]; exact htop b es blk hb hrd', ?_⟩
  intro d hd
  obtain ⟨e, he, rfl⟩ := List.mem_map.mp hd
  obtain ⟨hm, tm, c1, c2, c3, c4⟩ := htrees e (hsub b es hb hrd e he)
  have := clean_tree (rd := rd) (mem := rd64 rd true) (leafAt := mapLeafAt rd nr) (nr := nr) (fun e : Nat × Nat => e) (fun b ch => rd64_int) hm tm true c1.stored c1.noEmpty c1.bound
    (fun b es hb hrd => by
      obtain ⟨blk, h1⟩ := rd64_leaf hrd
      rw [show es.map (fun e => e) = es from List.map_id es]
      exact ⟨blk, h1, c4 b es blk hb h1⟩)
  rw [c2, c3, show (maps e.2).map (fun e => e) = maps e.2 from List.map_id _] at this
  refine ⟨this, ?_⟩
  show ((maps e.2).map (·.1)).Pairwise (· < ·)
  rw [← c3, List.pairwise_map]
  exact LW.ordered_sorted hm tm 0 none c1.ordered

/-- the details tree of a clean tree -/
theorem clean_detTree {h' : Nat} {t' : BT.Tree DeviceDetail h'} (hd : LW.Clean (rdDet rd true) nr h' t') : DetTree rd nr (· ≠ []) (t'.blk h') (t'.contents h') := by
  have := clean_tree (rd := rd) (mem := rdDet rd true) (leafAt := detLeafAt rd) (nr := nr) (fun e : Nat × DeviceDetail => e) (fun b ch => rdDet_int) h' t' true
    hd.stored hd.noEmpty hd.bound (fun b es hb hrd => by
      obtain ⟨blk, h1⟩ := rdDet_leaf hrd
      rw [show es.map (fun e => e) = es from List.map_id es]
      exact ⟨blk, h1⟩)
  rw [show (t'.contents h').map (fun e => e) = t'.contents h' from List.map_id _] at this
  exact this

/-- C46: the roots of a healthy pool that are not below other well-formed trees are a compatible pair, so (`findRoots_pairs`) they are among the roots found. -/
theorem healthy_compat (hw : WF rd) (hl : InPlace rd) {h h' : Nat} {t : BT.Tree Nat h} {maps : Nat → List (Nat × Nat)} {t' : BT.Tree DeviceDetail h'} (hh : Healthy rd nr t maps t')
    (hr : IsRoot rd nr (t.blk h)) (hr' : IsRoot rd nr (t'.blk h')) : ∃ d i, Compat rd nr d i ∧ d.b = t.blk h ∧ i.b = t'.blk h' := by
  have hsd := LW.ordered_sorted h t 0 none hh.devs.ordered
  have hst := LW.ordered_sorted h' t' 0 none hh.details.ordered
  have hdt := clean_devTree hh.devs hh.top hh.trees
  have htt := clean_detTree hh.details
  obtain ⟨d, hd⟩ := devTree_found hw hdt (by rw [List.map_map, List.pairwise_map]; exact hsd)
  obtain ⟨i, hi⟩ := detTree_found hw htt (by rw [List.pairwise_map]; exact hst)
  have hdb : d.b = t.blk h := valid_loc hl hd
  have hib : i.b = t'.blk h' := valid_loc hl hi
  refine ⟨d, i, ⟨by rw [hdb]; exact hd, by rw [hdb]; exact hr, by rw [hib]; exact hi, by rw [hib]; exact hr', ?_, ?_⟩, hdb, hib⟩
  · obtain ⟨l, l1, -, -, l4⟩ := valid_dev hw hd
    obtain ⟨m, m1, -, m3⟩ := valid_details hw hi
    rw [l4.nr, m3.nrMappings, ← devTree_unique hdt l1, ← detTree_unique htt m1, ← hh.count]
    unfold allMaps
    rw [List.flatMap_map]
  · rw [hdb, hib]
    exact identical_clean hh.devs hh.details hh.same

end Verif.Rep
