import Verif.Prop.RepairSb
import Verif.Prop.Damage

/-!
# C46: a tree of devices without details

If no pair of roots fits together, `find_roots` takes the trees of devices alone.  The devices then come with the number of mappings found in their trees.
-/

namespace Verif.Rep

open Verif.BT (Blk)

variable {rd : Nat → Option Raw} {nr : Nat}

theorem pushKid_kinds : ∀ (l : List Info) (x y : Info), l.foldlM pushKid x = some y → y.kind = x.kind ∧ ∀ a ∈ l, a.kind = x.kind := by
  intro l
  induction l with
  | nil => intro x y h; simp only [List.foldlM_nil] at h; cases h; exact ⟨rfl, fun a h => by cases h⟩
  | cons a l ih =>
    intro x y h
    rw [List.foldlM_cons] at h
    cases hp : pushKid x a with
    | none => rw [hp] at h; cases h
    | some z =>
      rw [hp] at h
      obtain ⟨h1, h2⟩ := ih z y h
      have hps := pushKid_some hp
      refine ⟨by rw [h1, hps.2.1], fun c hc => ?_⟩
      rcases List.mem_cons.mp hc with rfl | hc
      · exact hps.1.symm
      · rw [h2 c hc, hps.2.1]

theorem pushDev_kinds : ∀ (l : List Info) (x y : Info), l.foldlM pushDev x = some y → ∀ a ∈ l, ∃ m, a = .mappings m := by
  intro l
  induction l with
  | nil => intro x y _ a h; cases h
  | cons a l ih =>
    intro x y h c hc
    rw [List.foldlM_cons] at h
    cases hp : pushDev x a with
    | none => rw [hp] at h; cases h
    | some z =>
      rw [hp] at h
      rcases List.mem_cons.mp hc with rfl | hc
      · cases c with
        | mappings m => exact ⟨m, rfl⟩
        | dev _ => cases x <;> simp [pushDev] at hp
        | details _ => cases x <;> simp [pushDev] at hp
      · exact ih z y h c hc

/-- the nodes below the root of a tree of devices are trees of devices -/
theorem valid_reach {b : Nat} {i : Info} (h : Valid rd nr b i) (hk : i.kind = .dev) {x : Nat} (hx : BT.Reach (rd64 rd) nr b x) : ∃ j, Valid rd nr x j ∧ j.kind = .dev := by
  induction hx with
  | root => exact ⟨i, h, hk⟩
  | child _ hch hc _ ih =>
    obtain ⟨j, hj, hjk⟩ := ih
    obtain ⟨blk, hr⟩ := rd64_int hch
    cases hj with
    | internal _ _ k c ch kid _ _ hr' hv hf =>
      rw [hr] at hr'
      cases hr'
      obtain ⟨k1, k2⟩ := pushKid_kinds _ _ _ hf
      have hs : ∀ x : Info, (startKid blk x).kind = x.kind := by intro x; cases x <;> rfl
      have hm : ∀ y ∈ c :: ch.map (·.2), (kid y).kind = .dev := by
        intro y hy
        rw [k2 _ (List.mem_map.mpr ⟨y, hy, rfl⟩), ← k1]
        exact hjk
      have hin := List.mem_map_of_mem (f := (·.2)) hc
      rw [List.map_cons] at hin
      exact ⟨_, hv _ hin, hm _ hin⟩
    | top _ _ _ _ _ _ hr' => rw [hr] at hr'; cases hr'
    | mappings _ _ _ _ hr' => rw [hr] at hr'; cases hr'
    | details _ _ _ _ hr' => rw [hr] at hr'; cases hr'

/-- the values of the leaves of a tree of devices are roots of mapping trees -/
theorem valid_values {b : Nat} {i : Info} (h : Valid rd nr b i) (hk : i.kind = .dev) {x : Nat} (hx : BT.Reach (rd64 rd) nr b x) {es : List (Nat × Nat)}
    (hes : rd64 rd true x = some (.leaf es)) : ∀ e ∈ es, ∃ m, Valid rd nr e.2 (.mappings m) := by
  obtain ⟨j, hj, hjk⟩ := valid_reach h hk hx
  obtain ⟨blk, hr⟩ := rd64_leaf hes
  cases hj with
  | internal _ _ k c ch kid _ _ hr' hv hf => rw [hr] at hr'; cases hr'
  | top _ _ _ kid _ _ hr' _ hv hf =>
    rw [hr] at hr'
    cases hr'
    intro e he
    have hm := List.mem_map_of_mem (f := (·.2)) he
    obtain ⟨m, hm'⟩ := pushDev_kinds _ _ _ hf _ (List.mem_map.mpr ⟨_, hm, rfl⟩)
    exact ⟨m, by rw [← hm']; exact hv _ hm⟩
  | mappings _ _ _ _ hr' => cases hjk
  | details _ _ _ _ hr' => rw [hr] at hr'; cases hr'

/-- the entries of a tree are those of the leaves the walker can reach -/
theorem tree_entries {V α : Type} {f : α → Nat × V} {rv : Bool → Nat → Option (Blk V)} {leafAt : Nat → List α → Prop} {P : List α → Prop}
    (hint : ∀ b blk ch, rd b = some (.internal blk ch) → rv true b = some (.internal ch))
    (hleaf : ∀ b l, leafAt b l → rv true b = some (.leaf (l.map f))) {root : Nat} {l : List α} (h : Tree rd nr leafAt P root l) :
    ∀ k, k ∈ l.map f ↔ ∃ b es, BT.Reach rv nr root b ∧ rv true b = some (.leaf es) ∧ k ∈ es := by
  have lt : ∀ {b l}, Tree rd nr leafAt P b l → b < nr := by
    intro b l h
    cases h <;> assumption
  intro k
  constructor
  · have : ∀ {b l}, Tree rd nr leafAt P b l → BT.Reach rv nr root b → k ∈ l.map f → ∃ b es, BT.Reach rv nr root b ∧ rv true b = some (.leaf es) ∧ k ∈ es := by
      intro b l h
      induction h with
      | leaf b l hb hl =>
        intro hr hk
        exact ⟨b, _, hr, hleaf b l hl, hk⟩
      | node b blk ch kid hb hrd hne hkid hP ih =>
        intro hr hk
        rw [List.map_flatMap, List.mem_flatMap] at hk
        obtain ⟨c, hc, hk⟩ := hk
        exact ih c hc (.child hr (hint b blk ch hrd) hc (lt (hkid c hc))) hk
    exact this h .root
  · rintro ⟨b, es, h1, h2, h3⟩
    have : ∀ b, BT.Reach rv nr root b → ∃ l', Tree rd nr leafAt P b l' ∧ ∀ x ∈ l'.map f, x ∈ l.map f := by
      intro b hb
      induction hb with
      | root => exact ⟨l, h, fun x hx => hx⟩
      | child _ hch hc hlt ih =>
        obtain ⟨l', ht, hsub⟩ := ih
        cases ht with
        | leaf _ _ hb' hl' => rw [hleaf _ _ hl'] at hch; cases hch
        | node _ blk ch' kid _ hrd _ hkid _ =>
          rw [hint _ _ _ hrd] at hch
          cases hch
          refine ⟨_, hkid _ hc, fun x hx => hsub x ?_⟩
          rw [List.map_flatMap, List.mem_flatMap]
          exact ⟨_, hc, hx⟩
    obtain ⟨l', ht, hsub⟩ := this b h1
    cases ht with
    | leaf _ _ hb' hl' =>
      rw [hleaf _ _ hl'] at h2
      cases h2
      exact hsub _ h3
    | node _ blk ch' kid _ hrd _ hkid _ => rw [hint _ _ _ hrd] at h2; cases h2

/-- lists in order of their keys with the same elements are the same -/
theorem keyed_ext {V : Type} : ∀ (a b : List (Nat × V)), a.Pairwise (fun x y => x.1 < y.1) → b.Pairwise (fun x y => x.1 < y.1) → (∀ e, e ∈ a ↔ e ∈ b) → a = b := by
  intro a
  induction a with
  | nil =>
    intro b _ _ h
    cases b with
    | nil => rfl
    | cons y b => exact absurd ((h y).mpr (by simp)) (by simp)
  | cons x a ih =>
    intro b ha hb h
    cases b with
    | nil => exact absurd ((h x).mp (by simp)) (by simp)
    | cons y b =>
      rw [List.pairwise_cons] at ha hb
      have hxy : x = y := by
        rcases List.mem_cons.mp ((h x).mp (by simp)) with e | e
        · exact e
        · rcases List.mem_cons.mp ((h y).mpr (by simp)) with e' | e'
          · exact e'.symm
          · have := ha.1 y e'
            have := hb.1 x e
            omega
      subst hxy
      congr 1
      refine ih b ha.2 hb.2 fun e => ?_
      constructor
      · intro he
        rcases List.mem_cons.mp ((h e).mp (by simp [he])) with r | r
        · subst r; exact absurd (ha.1 e he) (Nat.lt_irrefl _)
        · exact r
      · intro he
        rcases List.mem_cons.mp ((h e).mpr (by simp [he])) with r | r
        · subst r; exact absurd (hb.1 e he) (Nat.lt_irrefl _)
        · exact r

/-- a map read from a tree of devices is that tree's -/
theorem map_of_devTree {d : Nat} {l : List Device} (h : DevTree rd nr (fun _ => True) (fun _ => True) d l) (hk : (l.map (·.dev)).Pairwise (· < ·))
    {m : List (Nat × Nat)} (hm : LW.btreeToMap (rd64 rd) nr d = some m) : m = l.map fun x => (x.dev, x.root) := by
  have hs := LW.btreeToMap_sound (rd := rd64 rd) (fun _ _ h => h) hm
  have hent := tree_entries (f := fun x : Device => (x.dev, x.root)) (rv := rd64 rd) (fun b blk ch hb => by unfold rd64; rw [hb])
    (fun b l hl => by obtain ⟨blk, h1, -⟩ := hl; unfold rd64; rw [h1]) h
  have hsorted : (l.map fun x => (x.dev, x.root)).Pairwise (fun x y => x.1 < y.1) := by
    rw [List.pairwise_map] at hk ⊢
    exact hk
  refine keyed_ext m _ hs.sorted hsorted fun e => ?_
  constructor
  · intro he
    obtain ⟨b, es, h1, h2, h3⟩ := hs.sound e he
    exact (hent e).mpr ⟨b, es, h1, h2, h3⟩
  · intro he
    obtain ⟨b, es, h1, h2, h3⟩ := (hent e).mp he
    obtain ⟨v, hv⟩ := hs.full b es h1 h2 e h3
    obtain ⟨b', es', h1', h2', h3'⟩ := hs.sound _ hv
    have he' := (hent (e.1, v)).mpr ⟨b', es', h1', h2', h3'⟩
    have : ∀ (l : List (Nat × Nat)), l.Pairwise (fun x y => x.1 < y.1) → ∀ k a b, (k, a) ∈ l → (k, b) ∈ l → a = b := by
      intro l
      induction l with
      | nil => intro _ k a b h; cases h
      | cons x l ih =>
        intro hp k a b ha hb
        rw [List.pairwise_cons] at hp
        rcases List.mem_cons.mp ha with ea | ea <;> rcases List.mem_cons.mp hb with eb | eb
        · rw [← ea] at eb; cases eb; rfl
        · have := hp.1 _ eb; rw [← ea] at this; exact absurd this (Nat.lt_irrefl _)
        · have := hp.1 _ ea; rw [← eb] at this; exact absurd this (Nat.lt_irrefl _)
        · exact ih hp.2 k a b ea eb
    have := this _ hsorted e.1 v e.2 he' he
    subst this
    exact hv

theorem lookupDevs_spec {s : St} (hs : ∀ b i, s.infos b = some i ↔ Valid rd nr b i) : ∀ (l : List (Nat × Nat)) (ds : List (Nat × Nat × Nat)), lookupDevs s l = some ds →
    ds.map (fun d => (d.1, d.2.1)) = l ∧ ∀ d ∈ ds, ∃ m, Valid rd nr d.2.1 (.mappings m) ∧ d.2.2 = m.nrMappings := by
  intro l
  induction l with
  | nil => intro ds h; cases h; exact ⟨rfl, fun d h => by cases h⟩
  | cons e l ih =>
    intro ds h
    obtain ⟨dev, root⟩ := e
    unfold lookupDevs at h
    split at h
    · rename_i m hm
      cases hr : lookupDevs s l with
      | none => rw [hr] at h; cases h
      | some r =>
        rw [hr] at h
        cases h
        obtain ⟨i1, i2⟩ := ih r hr
        refine ⟨by rw [List.map_cons, i1], fun d hd => ?_⟩
        rcases List.mem_cons.mp hd with rfl | hd
        · exact ⟨m, (hs _ _).mp hm, rfl⟩
        · exact i2 d hd
    · cases h

theorem lookupDevs_some {s : St} (hs : ∀ b i, s.infos b = some i ↔ Valid rd nr b i) : ∀ (l : List (Nat × Nat)), (∀ e ∈ l, ∃ m, Valid rd nr e.2 (.mappings m)) →
    ∃ ds, lookupDevs s l = some ds := by
  intro l
  induction l with
  | nil => intro _; exact ⟨[], rfl⟩
  | cons e l ih =>
    intro h
    obtain ⟨dev, root⟩ := e
    obtain ⟨m, hm⟩ := h (dev, root) (by simp)
    obtain ⟨r, hr⟩ := ih fun e he => h e (by simp [he])
    refine ⟨(dev, root, m.nrMappings) :: r, ?_⟩
    unfold lookupDevs
    rw [(hs _ _).mpr hm, hr]
    rfl

theorem allSome_spec {α β : Type} {f : α → Option β} : ∀ (l : List α) (r : List β), allSome f l = some r → l.map f = r.map some := by
  intro l
  induction l with
  | nil => intro r h; cases h; rfl
  | cons x l ih =>
    intro r h
    unfold allSome at h
    cases hx : f x with
    | none => rw [hx] at h; cases h
    | some y =>
      rw [hx] at h
      simp only at h
      cases hr : allSome f l with
      | none => rw [hr] at h; cases h
      | some r' =>
        rw [hr] at h
        cases h
        rw [List.map_cons, hx, ih r' hr]
        rfl

theorem allSome_total {α β : Type} {f : α → Option β} : ∀ (l : List α), (∀ x ∈ l, ∃ y, f x = some y) → ∃ r, allSome f l = some r := by
  intro l
  induction l with
  | nil => intro _; exact ⟨[], rfl⟩
  | cons x l ih =>
    intro h
    obtain ⟨y, hy⟩ := h x (by simp)
    obtain ⟨r, hr⟩ := ih fun z hz => h z (by simp [hz])
    exact ⟨y :: r, by unfold allSome; rw [hy, hr]; rfl⟩

/-- What is found for a tree of devices alone: its devices, each with its root and the number of its mappings (modulo 2^64); a time after all of theirs and room for all
data blocks they use (as long as the numbers fit). -/
structure AloneOf (rd : Nat → Option Raw) (nr : Nat) (d : DevInfo) (f : Found) (l : List Device) : Prop where
  tree : DevTree rd nr (fun _ => True) (fun _ => True) d.b l
  keys : (l.map (·.dev)).Pairwise (· < ·)
  devices : f.devices = .inCore (l.map fun x => (x.dev, x.root, x.maps.length % 2 ^ 64))
  time : (∀ m ∈ allMaps l, (btOf m.2).time < 2 ^ 32 - 1) → ∀ m ∈ allMaps l, (btOf m.2).time < f.time
  tid : f.tid = 1
  data : (∀ m ∈ allMaps l, (btOf m.2).block < 2 ^ 64 - 1) → ∀ m ∈ allMaps l, (btOf m.2).block < f.nrData
  small : f.nrData < 2 ^ 64

theorem maxOf_lt : ∀ (ks : List Nat) (B : Nat), 0 < B → (∀ k ∈ ks, k < B) → maxOf ks < B := by
  intro ks B hB
  induction ks with
  | nil => intro _; exact hB
  | cons x ks ih =>
    intro h
    have := ih fun k hk => h k (by simp [hk])
    have := h x (by simp)
    simp only [maxOf, List.foldr_cons] at *
    omega

theorem toPartial_spec (hw : WF rd) {s : St} (hs : ∀ b i, s.infos b = some i ↔ Valid rd nr b i) {d : DevInfo} (hd : Valid rd nr d.b (.dev d)) {f : Found}
    (h : toPartial rd nr s d = some f) : ∃ l, AloneOf rd nr d f l := by
  unfold toPartial at h
  cases hm : LW.btreeToMap (rd64 rd) nr d.b with
  | none => rw [hm] at h; cases h
  | some roots =>
    rw [hm] at h
    simp only at h
    cases hds : lookupDevs s roots with
    | none => rw [hds] at h; cases h
    | some ds =>
      rw [hds] at h
      cases h
      obtain ⟨l, l1, l2, -, l4⟩ := valid_dev hw hd
      obtain ⟨e1, e2⟩ := lookupDevs_spec hs roots ds hds
      have hr := map_of_devTree l1 l2.1 hm
      refine ⟨l, l1, l2.1, ?_, ?_, rfl, ?_, Nat.mod_lt _ (by decide)⟩
      · show Roots.inCore ds = _
        congr 1
        have hmaps : ∀ x ∈ l, MapTree rd nr (fun _ => True) x.root x.maps := by
          have : ∀ {b l}, DevTree rd nr (fun _ => True) (fun _ => True) b l → ∀ x ∈ l, MapTree rd nr (fun _ => True) x.root x.maps := by
            intro b l h
            induction h with
            | leaf b l _ hl =>
              intro x hx
              obtain ⟨blk, -, -, h3⟩ := hl
              exact (h3 x hx).1
            | node b blk ch kid _ _ _ _ _ ih =>
              intro x hx
              obtain ⟨c, hc, hx⟩ := List.mem_flatMap.mp hx
              exact ih c hc x hx
          exact this l1
        have hnum : ∀ x ∈ l, ∀ m, Valid rd nr x.root (.mappings m) → m.nrMappings = x.maps.length % 2 ^ 64 := by
          intro x hx m hv
          obtain ⟨ms, m1, -, m3⟩ := valid_mappings hw hv
          have : ms = x.maps := tree_unique (fun b l l' h h' => by
              obtain ⟨_, h1, -⟩ := h
              obtain ⟨_, h1', -⟩ := h'
              rw [h1] at h1'
              cases h1'
              rfl) (fun b l blk ch h e => by
              obtain ⟨_, h1, -⟩ := h
              rw [h1] at e
              cases e) m1 (hmaps x hx)
          rw [m3.nr, this]
        rw [hr] at e1
        clear hds hr hm l1 l2 l4 hmaps
        induction l generalizing ds with
        | nil =>
          cases ds with
          | nil => rfl
          | cons a ds => cases e1
        | cons x l ih =>
          cases ds with
          | nil => cases e1
          | cons a ds =>
            rw [List.map_cons, List.map_cons] at e1
            injection e1 with e3 e4
            obtain ⟨m, hv, hn⟩ := e2 a (by simp)
            obtain ⟨a1, a2, a3⟩ := a
            simp only [Prod.mk.injEq] at e3 hv hn
            obtain ⟨e5, e6⟩ := e3
            subst e5 e6
            rw [List.map_cons, ← ih ds e4 (fun d hd => e2 d (by simp [hd])) (fun y hy => hnum y (by simp [hy])), hn, hnum x (by simp) m hv]
      · intro hlt x hx
        have h5 : (btOf x.2).time ≤ d.age := by rw [l4.age]; exact le_maxOf (List.mem_map.mpr ⟨x, hx, rfl⟩)
        have h6 : d.age < 2 ^ 32 - 1 := by
          rw [l4.age]
          refine maxOf_lt _ _ (by decide) ?_
          intro k hk
          obtain ⟨y, hy, rfl⟩ := List.mem_map.mp hk
          exact hlt y hy
        show _ < (d.age + 1) % 2 ^ 32
        rw [Nat.mod_eq_of_lt (by omega)]
        omega
      · intro hlt x hx
        have h5 : (btOf x.2).block ≤ d.highest := by rw [l4.highest]; exact le_maxOf (List.mem_map.mpr ⟨x, hx, rfl⟩)
        have h6 : d.highest < 2 ^ 64 - 1 := by
          rw [l4.highest]
          refine maxOf_lt _ _ (by decide) ?_
          intro k hk
          obtain ⟨y, hy, rfl⟩ := List.mem_map.mp hk
          exact hlt y hy
        show _ < (d.highest + 1) % 2 ^ 64
        rw [Nat.mod_eq_of_lt (by omega)]
        omega

/-- C46: without a compatible pair of roots, whatever is found is a tree of devices that is not part of a bigger one, with all of its devices and their numbers of
mappings, and every such tree is found (in some order, the one with the youngest mappings first: `sorted`). -/
theorem findRoots_alone (hw : WF rd) (hl : InPlace rd) {fs : List Found} (h : FindRoots rd nr (some fs)) (hc : ¬ ∃ d t, Compat rd nr d t) :
    ∃ ds : List DevInfo, ds ≠ [] ∧ (∀ d, d ∈ ds ↔ Valid rd nr d.b (.dev d) ∧ IsRoot rd nr d.b) ∧ ds.Pairwise (fun x y => ¬ compareTC x.tc y.tc = .gt) ∧
      fs.length = ds.length ∧ ∀ p ∈ ds.zip fs, ∃ l, AloneOf rd nr p.1 p.2 l := by
  obtain ⟨s, devs', pairs, hs, hp, hr⟩ := h
  have hd := mem_devRoots hl hs
  have ht := mem_detRoots hl hs
  have hex := (collect_exact hs).1
  have hp0 := hp
  obtain ⟨pairs', e, -, hmem, -⟩ := findPairs_exact hp0 (fun d hdm t htm hi => identical_nr hw ((hd d).mp hdm).1 ((ht t).mp htm).1 hi)
  cases e
  cases pairs with
  | cons p ps =>
    exfalso
    have := (hmem p.1 p.2).mp (by simp)
    rw [hd, ht] at this
    exact hc ⟨p.1, p.2, this.1.1, this.1.2, this.2.1.1, this.2.1.2, this.2.2.1, this.2.2.2⟩
  | nil =>
    obtain ⟨⟨hperm, hsort⟩, -⟩ := hp
    have hmemd : ∀ d, d ∈ devs' ↔ Valid rd nr d.b (.dev d) ∧ IsRoot rd nr d.b := fun d => by rw [hperm.mem_iff, hd]
    unfold finishRoots at hr
    simp only at hr
    cases devs' with
    | nil => simp at hr
    | cons x xs =>
      simp only [List.isEmpty_cons, Bool.false_eq_true, if_false] at hr
      have hall := allSome_spec _ _ hr.symm
      refine ⟨x :: xs, by simp, hmemd, hsort, ?_, ?_⟩
      · have := congrArg List.length hall
        rw [List.length_map, List.length_map] at this
        exact this.symm
      · have : ∀ (ds : List DevInfo) (fs : List Found), ds.map (toPartial rd nr s) = fs.map some → ∀ p ∈ ds.zip fs, p.1 ∈ ds ∧ toPartial rd nr s p.1 = some p.2 := by
          intro ds
          induction ds with
          | nil => intro fs _ p hp; simp at hp
          | cons d ds ih =>
            intro fs h p hp
            cases fs with
            | nil => cases h
            | cons f fs =>
              rw [List.map_cons, List.map_cons] at h
              injection h with h1 h2
              rw [List.zip_cons_cons] at hp
              rcases List.mem_cons.mp hp with rfl | hp
              · exact ⟨by simp, h1⟩
              · obtain ⟨i1, i2⟩ := ih fs h2 p hp
                exact ⟨by simp [i1], i2⟩
        intro p hp
        obtain ⟨h1, h2⟩ := this _ _ hall p hp
        exact toPartial_spec hw hex ((hmemd p.1).mp h1).1 h2

/-- C46: without a compatible pair of roots something is found whenever there is a tree of devices that is not part of a bigger one, and all such trees are clean search trees. -/
theorem findRoots_alone_found (hw : WF rd) (hl : InPlace rd) {r : Option (List Found)} (h : FindRoots rd nr r) (hc : ¬ ∃ d t, Compat rd nr d t)
    (hex : ∃ d, Valid rd nr d.b (.dev d) ∧ IsRoot rd nr d.b)
    (hclean : ∀ d, Valid rd nr d.b (.dev d) → IsRoot rd nr d.b → ∃ h, ∃ t : BT.Tree Nat h, LW.Clean (rd64 rd true) nr h t ∧ t.blk h = d.b) : ∃ f fs, r = some (f :: fs) := by
  obtain ⟨s, devs', pairs, hs, hp, hr⟩ := h
  have hd := mem_devRoots hl hs
  have ht := mem_detRoots hl hs
  have hin := (collect_exact hs).1
  have hp0 := hp
  obtain ⟨pairs', e, -, hmem, -⟩ := findPairs_exact hp0 (fun d hdm t htm hi => identical_nr hw ((hd d).mp hdm).1 ((ht t).mp htm).1 hi)
  cases e
  cases pairs with
  | cons p ps =>
    exfalso
    have := (hmem p.1 p.2).mp (by simp)
    rw [hd, ht] at this
    exact hc ⟨p.1, p.2, this.1.1, this.1.2, this.2.1.1, this.2.1.2, this.2.2.1, this.2.2.2⟩
  | nil =>
    obtain ⟨⟨hperm, -⟩, -⟩ := hp
    have hmemd : ∀ d, d ∈ devs' ↔ Valid rd nr d.b (.dev d) ∧ IsRoot rd nr d.b := fun d => by rw [hperm.mem_iff, hd]
    obtain ⟨fs, hfs⟩ := allSome_total (f := toPartial rd nr s) devs' (by
      intro d hdm
      obtain ⟨hv, hroot⟩ := (hmemd d).mp hdm
      obtain ⟨h, t, hcl, hb⟩ := hclean d hv hroot
      have hm := LW.btreeToMap_contents hcl
      rw [hb] at hm
      obtain ⟨ds, hds⟩ := lookupDevs_some hin (t.contents h) (by
        intro e he
        obtain ⟨b, es, h1, h2, h3⟩ := (LW.btreeToMap_sound (rd := fun _ b => rd64 rd true b) (fun _ _ h => h) hm).sound e he
        exact valid_values hv rfl h1 h2 e h3)
      refine ⟨⟨.inCore ds, (d.age + 1) % 2 ^ 32, 1, (d.highest + 1) % 2 ^ 64⟩, ?_⟩
      unfold toPartial
      rw [show LW.btreeToMap (rd64 rd) nr d.b = some (t.contents h) from hm]
      simp only
      rw [hds]
      rfl)
    obtain ⟨d, hd0⟩ := hex
    have hne := (hmemd d).mpr hd0
    unfold finishRoots at hr
    simp only at hr
    cases devs' with
    | nil => cases hne
    | cons x xs =>
      simp only [List.isEmpty_cons, Bool.false_eq_true, if_false] at hr
      rw [hr, hfs]
      cases fs with
      | nil => cases allSome_spec _ _ hfs
      | cons f fs => exact ⟨f, fs, rfl⟩

/-! ## A pool that has lost its details -/

/-- the demo pool without its details -/
def loneRd (b : Nat) : Option Raw := if b = 2 then none else demoRd b

theorem lone_wf : WF loneRd ∧ InPlace loneRd := by
  obtain ⟨⟨h1, h2⟩, h3⟩ := demo_wf
  have sub : ∀ b r, loneRd b = some r → demoRd b = some r := by
    intro b r h
    unfold loneRd at h
    split at h
    · cases h
    · exact h
  exact ⟨⟨fun b blk es h => h1 b blk es (sub _ _ h), fun b blk es h => h2 b blk es (sub _ _ h)⟩, fun b r h => h3 b r (sub b r h)⟩

theorem lone_found : ∃ f, FindRoots loneRd 8 (some [f]) ∧ f.devices = .inCore [(1, 3, 2)] := by
  refine ⟨_, ⟨_, _, [], rfl, ⟨⟨List.Perm.refl _, ?_⟩, [], ⟨List.Perm.refl _, List.Pairwise.nil⟩, rfl⟩, rfl⟩, rfl⟩
  exact List.pairwise_singleton _ _

theorem lone_incompat : ¬ ∃ d t, Compat loneRd 8 d t := by
  rintro ⟨d, t, -, -, h, -, -, -⟩
  obtain ⟨l, h1, -⟩ := valid_details lone_wf.1 h
  have : ∀ b l, DetTree loneRd 8 (fun _ => True) b l → False := by
    intro b l h
    induction h with
    | leaf b l _ hl =>
      obtain ⟨blk, hb⟩ := hl
      unfold loneRd demoRd at hb
      split at hb
      · cases hb
      · split at hb <;> simp_all
    | node b blk ch kid _ hr hne _ _ ih =>
      cases ch with
      | nil => exact hne rfl
      | cons c ch => exact ih c (by simp)
  exact this _ _ h1

/-- the pool meets the hypotheses of `findRoots_alone` -/
example : ∃ fs, FindRoots loneRd 8 (some fs) ∧ WF loneRd ∧ InPlace loneRd ∧ ¬ ∃ d t, Compat loneRd 8 d t :=
  let ⟨f, h, _⟩ := lone_found
  ⟨[f], h, lone_wf.1, lone_wf.2, lone_incompat⟩

/-- and those of `findRoots_alone_found` -/
example : (∃ d, Valid loneRd 8 d.b (.dev d) ∧ IsRoot loneRd 8 d.b) ∧
    ∀ d, Valid loneRd 8 d.b (.dev d) → IsRoot loneRd 8 d.b → ∃ h, ∃ t : BT.Tree Nat h, LW.Clean (rd64 loneRd true) 8 h t ∧ t.blk h = d.b := by
  obtain ⟨s, x, h1, h2, h3⟩ : ∃ s d, collect loneRd 8 = .ok s ∧ devRoots 8 s = [d] ∧ d.b = 1 := ⟨_, _, rfl, rfl, rfl⟩
  have hm := mem_devRoots lone_wf.2 h1
  rw [h2] at hm
  refine ⟨⟨x, (hm x).mp (by simp)⟩, fun d hd hr => ?_⟩
  rw [List.mem_singleton.mp ((hm d).mpr ⟨hd, hr⟩), h3]
  exact ⟨0, demoDevs, ⟨rfl, by simp [demoDevs, BT.Tree.Ordered, BT.Chain, BT.Below], Or.inl rfl, by intro b hb; rw [List.mem_singleton.mp hb]; decide⟩, rfl⟩

end Verif.Rep
