import Verif.Prop.RepairMeaning
import Verif.Prop.LeafWalker

/-!
# C46: `thin_repair` finds the pairs of roots

Healthy trees are found; device sets are compared by their keys; the pairs and their order.
-/

namespace Verif.Rep

open Verif.BT (Blk WSt Event Res)

variable {rd : Nat → Option Raw} {nr : Nat}

/-! ## Healthy trees are found -/

theorem flatMap_sorted {α β : Type} {key : α → Nat} {f : β → List α} : ∀ {l : List β}, ((l.flatMap f).map key).Pairwise (· < ·) → ∀ x ∈ l, ((f x).map key).Pairwise (· < ·) := by
  intro l
  induction l with
  | nil => intro _ x hx; cases hx
  | cons y l ih =>
    intro h x hx
    rw [List.flatMap_cons, List.map_append, List.pairwise_append] at h
    rcases List.mem_cons.mp hx with rfl | hx
    · exact h.1
    · exact ih h.2.1 x hx

/-- first and last -/
def Ends (ks : List Nat) (lo hi : Nat) : Prop := ks.head? = some lo ∧ ks.getLast? = some hi

theorem pushKid_fold {α : Type} {key : α → Nat} {K : Kind} {content : Nat → List α} {kid : Nat → Info} : ∀ (cs : List Nat) (l : List α) (i : Info), i.kind = K →
    (∀ c ∈ cs, (kid c).kind = K ∧ content c ≠ [] ∧ Ends ((content c).map key) (kid c).lo (kid c).hi) → ((l ++ cs.flatMap content).map key).Pairwise (· < ·) →
    ((i.pushed = false ∧ l = []) ∨ (i.pushed = true ∧ Ends (l.map key) i.lo i.hi)) →
    ∃ r, (cs.map kid).foldlM pushKid i = some r ∧ r.kind = K ∧ (l ++ cs.flatMap content ≠ [] → Ends ((l ++ cs.flatMap content).map key) r.lo r.hi) := by
  intro cs
  induction cs with
  | nil =>
    intro l i hk _ hs hi
    refine ⟨i, rfl, hk, fun hne => ?_⟩
    simp only [List.flatMap_nil, List.append_nil] at hne ⊢
    rcases hi with ⟨-, rfl⟩ | ⟨-, h⟩
    · exact absurd rfl hne
    · exact h
  | cons c cs ih =>
    intro l i hk hc hs hi
    obtain ⟨c1, c2, c3⟩ := hc c (by simp)
    rw [List.flatMap_cons, ← List.append_assoc] at hs
    have hs1 : ((l ++ content c).map key).Pairwise (· < ·) := by
      rw [List.map_append, List.pairwise_append] at hs
      exact hs.1
    have hno : ¬ (i.pushed = true ∧ (kid c).lo ≤ i.hi) := by
      rintro ⟨hp, hle⟩
      rcases hi with ⟨h, -⟩ | ⟨-, h⟩
      · rw [hp] at h; cases h
      · rw [List.map_append, List.pairwise_append] at hs1
        have := hs1.2.2 i.hi (List.mem_of_getLast? h.2) (kid c).lo (List.mem_of_head? c3.1)
        omega
    obtain ⟨r, hr⟩ := pushKid_ok (hk.trans c1.symm) hno
    obtain ⟨p1, p2, p3, p4, p5, p6, p7⟩ := pushKid_some hr
    have hne : (content c).map key ≠ [] := by simpa using c2
    obtain ⟨r', q1, q2, q3⟩ := ih (l ++ content c) r (p2.trans hk) (fun x hx => hc x (by simp [hx])) hs (Or.inr ⟨p4, by
      refine ⟨?_, ?_⟩
      · rw [p6, List.map_append, List.head?_append]
        rcases hi with ⟨h, rfl⟩ | ⟨h, h'⟩
        · rw [h]; simpa using c3.1
        · rw [h, h'.1]; rfl
      · rw [p5, List.map_append, List.getLast?_append, c3.2]; rfl⟩)
    refine ⟨r', ?_, q2, ?_⟩
    · rw [List.map_cons, List.foldlM_cons, hr]; exact q1
    · simpa [List.flatMap_cons, List.append_assoc] using q3

/-- Completeness for one kind of tree. -/
theorem tree_valid {α : Type} {key : α → Nat} {K : Kind} {leafAt : Nat → List α → Prop}
    (hleaf : ∀ b l, b < nr → leafAt b l → (l.map key).Pairwise (· < ·) → ∃ i, Valid rd nr b i ∧ i.kind = K ∧ (l ≠ [] → Ends (l.map key) i.lo i.hi))
    {b : Nat} {l : List α} (h : Tree rd nr leafAt (· ≠ []) b l) : (l.map key).Pairwise (· < ·) → ∃ i, Valid rd nr b i ∧ i.kind = K ∧ (l ≠ [] → Ends (l.map key) i.lo i.hi) := by
  induction h with
  | leaf b l hb h => exact hleaf b l hb h
  | node b blk ch kid hb hr hne _ hP ih =>
    intro hs
    have hex : ∀ x, ∃ i, x ∈ ch.map (·.2) → Valid rd nr x i ∧ i.kind = K ∧ Ends ((kid x).map key) i.lo i.hi := by
      intro x
      by_cases hx : x ∈ ch.map (·.2)
      · obtain ⟨c, hc, rfl⟩ := List.mem_map.mp hx
        obtain ⟨i, h1, h2, h3⟩ := ih c hc (flatMap_sorted hs c hc)
        exact ⟨i, fun _ => ⟨h1, h2, h3 (hP c hc)⟩⟩
      · exact ⟨.dev (.new 0), fun h => absurd h hx⟩
    obtain ⟨info, hinfo⟩ := Classical.axiomOfChoice hex
    have hflat : (ch.map (·.2)).flatMap kid = ch.flatMap fun c => kid c.2 := by rw [List.flatMap_map]
    cases ch with
    | nil => exact absurd rfl hne
    | cons p ch =>
      obtain ⟨k, c⟩ := p
      have hk0 : (startKid blk (info c)).kind = K := by
        have := (hinfo c (by simp)).2.1
        rw [← this]
        cases info c <;> rfl
      have hp0 : (startKid blk (info c)).pushed = false := by cases info c <;> rfl
      obtain ⟨r, r1, r2, r3⟩ := pushKid_fold (key := key) (K := K) (content := kid) (kid := info) (((k, c) :: ch).map (·.2)) [] (startKid blk (info c)) hk0
        (fun x hx => ⟨(hinfo x hx).2.1, by
          obtain ⟨y, hy, rfl⟩ := List.mem_map.mp hx
          exact hP y hy, (hinfo x hx).2.2⟩) (by rw [List.nil_append, hflat]; exact hs) (Or.inl ⟨hp0, rfl⟩)
      rw [List.nil_append, hflat] at r3
      refine ⟨r, .internal b blk k c ch info r hb hr (fun x hx => (hinfo x (by simpa using hx)).1) ?_, r2, r3⟩
      simpa using r1

theorem ends_leaf {V : Type} {es : List (Nat × V)} (h : es ≠ []) : Ends (es.map (·.1)) (firstKey es) (lastKey es) := by
  constructor
  · cases es with
    | nil => exact absurd rfl h
    | cons e es => rfl
  · unfold lastKey
    rw [List.getLast?_map, List.getLast?_eq_some_getLast h]
    rfl

/-- C46: a mapping tree without empty nodes and with increasing keys is found -/
theorem mapTree_found (hw : WF rd) {b : Nat} {l : List (Nat × Nat)} (h : MapTree rd nr (· ≠ []) b l) (hs : (l.map (·.1)).Pairwise (· < ·)) :
    ∃ i : MapInfo, Valid rd nr b (.mappings i) := by
  obtain ⟨i, h1, h2, -⟩ := tree_valid (K := .mappings) (key := fun x : Nat × Nat => x.1) (fun b l hb hl _ => by
    obtain ⟨blk, hr, ht⟩ := hl
    obtain ⟨-, m2, m3, -⟩ := mapLeaf_sums blk (hw.leaf b blk l hr).2
    refine ⟨_, .mappings b blk l hb hr ht, rfl, fun hne => ?_⟩
    show Ends _ (mapLeaf blk l).keyLow (mapLeaf blk l).keyHigh
    rw [m2, m3]
    exact ends_leaf hne) h hs
  cases i with
  | dev _ => cases h2
  | details _ => cases h2
  | mappings i => exact ⟨i, h1⟩

/-- C46: a details tree without empty nodes and with increasing devices is found -/
theorem detTree_found (hw : WF rd) {b : Nat} {l : List (Nat × DeviceDetail)} (h : DetTree rd nr (· ≠ []) b l) (hs : (l.map (·.1)).Pairwise (· < ·)) :
    ∃ i : DetInfo, Valid rd nr b (.details i) := by
  obtain ⟨i, h1, h2, -⟩ := tree_valid (K := .details) (key := fun x : Nat × DeviceDetail => x.1) (fun b l hb hl _ => by
    obtain ⟨blk, hr⟩ := hl
    obtain ⟨-, m2, m3, -⟩ := detLeaf_sums blk (hw.details b blk l hr).2
    refine ⟨_, .details b blk l hb hr, rfl, fun hne => ?_⟩
    show Ends _ (detLeaf blk l).keyLow (detLeaf blk l).keyHigh
    rw [m2, m3]
    exact ends_leaf hne) h hs
  cases i with
  | dev _ => cases h2
  | mappings _ => cases h2
  | details i => exact ⟨i, h1⟩

theorem pushDev_ok (kid : Nat → Info) : ∀ (es : List (Nat × Nat)) (i : DevInfo), (∀ e ∈ es, ∃ m, kid e.2 = .mappings m) →
    ∃ j : DevInfo, ((es.map (·.2)).map kid).foldlM pushDev (.dev i) = some (.dev j) ∧ j.keyLow = i.keyLow ∧ j.keyHigh = i.keyHigh := by
  intro es
  induction es with
  | nil => intro i _; exact ⟨i, rfl, rfl, rfl⟩
  | cons e es ih =>
    intro i h
    obtain ⟨m, hm⟩ := h e (by simp)
    rw [List.map_cons, List.map_cons, List.foldlM_cons, hm]
    exact ih _ fun x hx => h x (by simp [hx])

/-- C46: a tree of devices without empty nodes, with increasing device numbers and such mapping trees, is found -/
theorem devTree_found (hw : WF rd) {b : Nat} {l : List Device} (h : DevTree rd nr (· ≠ []) (· ≠ []) b l) (hs : (l.map (·.dev)).Pairwise (· < ·)) :
    ∃ i : DevInfo, Valid rd nr b (.dev i) := by
  obtain ⟨i, h1, h2, -⟩ := tree_valid (K := .dev) (key := fun x : Device => x.dev) (fun b l hb hl _ => by
    obtain ⟨blk, hr, ht, hd⟩ := hl
    have hex : ∀ x, ∃ i, x ∈ l.map (·.root) → Valid rd nr x i ∧ ∃ m, i = .mappings m := by
      intro x
      by_cases hx : x ∈ l.map (·.root)
      · obtain ⟨d, hdl, rfl⟩ := List.mem_map.mp hx
        obtain ⟨m, hm⟩ := mapTree_found hw (hd d hdl).1 (hd d hdl).2
        exact ⟨_, fun _ => ⟨hm, m, rfl⟩⟩
      · exact ⟨.dev (.new 0), fun h => absurd h hx⟩
    obtain ⟨info, hinfo⟩ := Classical.axiomOfChoice hex
    have hroot : ∀ e ∈ l.map (fun d => (d.dev, d.root)), e.2 ∈ l.map (·.root) := by
      intro e he
      obtain ⟨d, hdl, rfl⟩ := List.mem_map.mp he
      exact List.mem_map.mpr ⟨d, hdl, rfl⟩
    obtain ⟨j, j1, j2, j3⟩ := pushDev_ok info (l.map fun d => (d.dev, d.root))
      { DevInfo.new blk with nrDevices := (l.map fun d => (d.dev, d.root)).length, keyLow := firstKey (l.map fun d => (d.dev, d.root)), keyHigh := lastKey (l.map fun d => (d.dev, d.root)) }
      (fun e he => (hinfo e.2 (hroot e he)).2)
    refine ⟨.dev j, .top b blk _ info (.dev j) hb hr ht ?_ j1, rfl, fun hne => ?_⟩
    · intro x hx
      obtain ⟨e, he, rfl⟩ := List.mem_map.mp hx
      exact (hinfo e.2 (hroot e he)).1
    · show Ends _ j.keyLow j.keyHigh
      rw [j2, j3]
      have := ends_leaf (es := l.map fun d => (d.dev, d.root)) (by simpa using hne)
      rw [List.map_map] at this
      exact this) h hs
  cases i with
  | details _ => cases h2
  | mappings _ => cases h2
  | dev i => exact ⟨i, h1⟩

/-! ## Clean search trees are such trees -/

theorem clean_tree {V α : Type} {mem : Nat → Option (Blk V)} {leafAt : Nat → List α → Prop} (f : Nat × V → α)
    (hint : ∀ b ch, mem b = some (.internal ch) → ∃ blk, rd b = some (.internal blk ch)) :
    ∀ (h : Nat) (t : BT.Tree V h) (r : Bool), t.Stored (fun _ b => mem b) r h → (h = 0 ∨ t.NoEmpty h) → (∀ b ∈ t.blocks h, b < nr) →
      (∀ b es, b ∈ t.blocks h → mem b = some (.leaf es) → leafAt b (es.map f)) → Tree rd nr leafAt (· ≠ []) (t.blk h) ((t.contents h).map f) := by
  intro h
  induction h with
  | zero =>
    intro t r hs _ hb hl
    exact .leaf _ _ (hb _ (by simp [BT.Tree.blocks, BT.Tree.blk])) (hl _ _ (by simp [BT.Tree.blocks, BT.Tree.blk]) hs)
  | succ h ih =>
    intro t r hs hn hb hl
    obtain ⟨h1, h2⟩ := hs
    have hn : t.NoEmpty (h + 1) := hn.resolve_left (by omega)
    obtain ⟨n1, n2⟩ := hn
    obtain ⟨blk, hr⟩ := hint _ _ h1
    have hex : ∀ x, ∃ l : List α, ∀ c ∈ t.2, BT.Tree.blk h c.2 = x → l = (BT.Tree.contents h c.2).map f := by
      intro x
      by_cases hx : ∃ c ∈ t.2, BT.Tree.blk h c.2 = x
      · obtain ⟨c, hc, e⟩ := hx
        refine ⟨(BT.Tree.contents h c.2).map f, fun c' hc' e' => ?_⟩
        rw [(LW.stored_unique h h c.2 c'.2 false false (h2 c hc) (h2 c' hc') (Or.inr (n2 c hc)) (Or.inr (n2 c' hc')) (e.trans e'.symm)).2]
      · exact ⟨[], fun c hc e => absurd ⟨c, hc, e⟩ hx⟩
    obtain ⟨kid, hkid⟩ := Classical.axiomOfChoice hex
    have hsub : ∀ c ∈ t.2, ∀ b ∈ BT.Tree.blocks h c.2, b ∈ BT.Tree.blocks (h + 1) t := by
      intro c hc b hbm
      exact List.mem_cons.mpr (Or.inr (List.mem_flatMap.mpr ⟨c, hc, hbm⟩))
    have hcont : (t.contents (h + 1)).map f = (t.2.map fun c => (c.1, BT.Tree.blk h c.2)).flatMap fun c => kid c.2 := by
      show (t.2.flatMap fun c => BT.Tree.contents h c.2).map f = _
      rw [List.flatMap_map, List.map_flatMap]
      have : ∀ (l : List (Nat × BT.Tree V h)), (∀ c ∈ l, c ∈ t.2) → (l.flatMap fun c => (BT.Tree.contents h c.2).map f) = l.flatMap fun c => kid (BT.Tree.blk h c.2) := by
        intro l
        induction l with
        | nil => intro _; rfl
        | cons c l ihl =>
          intro hl
          rw [List.flatMap_cons, List.flatMap_cons, ihl (fun x hx => hl x (by simp [hx])), hkid _ c (hl c (by simp)) rfl]
      exact this t.2 fun c hc => hc
    rw [hcont]
    refine .node _ blk _ kid (hb _ (by simp [BT.Tree.blocks, BT.Tree.blk])) hr (by simpa using n1) ?_ ?_
    · intro x hx
      obtain ⟨c, hc, rfl⟩ := List.mem_map.mp hx
      show Tree rd nr leafAt _ (BT.Tree.blk h c.2) (kid (BT.Tree.blk h c.2))
      rw [hkid _ c hc rfl]
      exact ih c.2 false (h2 c hc) (Or.inr (n2 c hc)) (fun b hbm => hb b (hsub c hc b hbm)) (fun b es hbm => hl b es (hsub c hc b hbm))
    · intro x hx
      obtain ⟨c, hc, rfl⟩ := List.mem_map.mp hx
      show kid (BT.Tree.blk h c.2) ≠ []
      rw [hkid _ c hc rfl]
      simpa using LW.noEmpty_contents h c.2 (n2 c hc)

/-! ## Device sets -/

theorem insKey_spec (k : Nat) : ∀ (l : List Nat), l.Pairwise (· < ·) → (insKey k l).Pairwise (· < ·) ∧ ∀ x, x ∈ insKey k l ↔ x = k ∨ x ∈ l := by
  intro l
  induction l with
  | nil => intro _; simp [insKey]
  | cons y l ih =>
    intro hs
    obtain ⟨h1, h2⟩ := List.pairwise_cons.mp hs
    unfold insKey
    by_cases c1 : k < y
    · rw [if_pos c1]
      refine ⟨List.pairwise_cons.mpr ⟨?_, hs⟩, fun x => by simp⟩
      intro x hx
      rcases List.mem_cons.mp hx with rfl | hx
      · exact c1
      · have := h1 x hx; omega
    · rw [if_neg c1]
      by_cases c2 : k = y
      · rw [if_pos c2]
        exact ⟨hs, fun x => by simp [c2]⟩
      · rw [if_neg c2]
        obtain ⟨i1, i2⟩ := ih h2
        refine ⟨List.pairwise_cons.mpr ⟨?_, i1⟩, fun x => ?_⟩
        · intro x hx
          rcases (i2 x).mp hx with rfl | hx
          · omega
          · exact h1 x hx
        · simp only [List.mem_cons, i2]
          constructor
          · rintro (h | h | h)
            · exact Or.inr (Or.inl h)
            · exact Or.inl h
            · exact Or.inr (Or.inr h)
          · rintro (h | h | h)
            · exact Or.inr (Or.inl h)
            · exact Or.inl h
            · exact Or.inr (Or.inr h)

theorem keysOf_spec {V : Type} : ∀ (log : List (Event V)) (acc : List Nat), acc.Pairwise (· < ·) → (keysOf log acc).Pairwise (· < ·) ∧
    ∀ k, k ∈ keysOf log acc ↔ k ∈ acc ∨ ∃ p kr es, Event.visit p kr es ∈ log ∧ k ∈ es.map (·.1) := by
  have fold : ∀ (es : List (Nat × V)) (acc : List Nat), acc.Pairwise (· < ·) → (es.foldl (fun a e => insKey e.1 a) acc).Pairwise (· < ·) ∧
      ∀ k, k ∈ es.foldl (fun a e => insKey e.1 a) acc ↔ k ∈ acc ∨ k ∈ es.map (·.1) := by
    intro es
    induction es with
    | nil => intro acc h; exact ⟨h, fun k => by simp⟩
    | cons e es ih =>
      intro acc h
      obtain ⟨a1, a2⟩ := insKey_spec e.1 acc h
      obtain ⟨b1, b2⟩ := ih _ a1
      refine ⟨b1, fun k => ?_⟩
      rw [List.foldl_cons, b2, a2, List.map_cons, List.mem_cons]
      constructor
      · rintro ((h | h) | h)
        · exact Or.inr (Or.inl h)
        · exact Or.inl h
        · exact Or.inr (Or.inr h)
      · rintro (h | h | h)
        · exact Or.inl (Or.inr h)
        · exact Or.inl (Or.inl h)
        · exact Or.inr h
  intro log
  induction log with
  | nil => intro acc h; exact ⟨h, fun k => by simp [keysOf]⟩
  | cons e log ih =>
    intro acc h
    cases e with
    | visit p kr es =>
      obtain ⟨a1, a2⟩ := fold es acc h
      obtain ⟨b1, b2⟩ := ih _ a1
      refine ⟨b1, fun k => ?_⟩
      rw [keysOf, b2, a2]
      constructor
      · rintro ((h | h) | ⟨p', kr', es', h1, h2⟩)
        · exact Or.inl h
        · exact Or.inr ⟨p, kr, es, by simp, h⟩
        · exact Or.inr ⟨p', kr', es', by simp [h1], h2⟩
      · rintro (h | ⟨p', kr', es', h1, h2⟩)
        · exact Or.inl (Or.inl h)
        · rcases List.mem_cons.mp h1 with h1 | h1
          · cases h1; exact Or.inl (Or.inr h2)
          · exact Or.inr ⟨p', kr', es', h1, h2⟩
    | again p b =>
      obtain ⟨b1, b2⟩ := ih _ h
      refine ⟨b1, fun k => ?_⟩
      rw [keysOf, b2]
      · simp
      · intro _ _ _ h; cases h
    | endWalk =>
      obtain ⟨b1, b2⟩ := ih _ h
      refine ⟨b1, fun k => ?_⟩
      rw [keysOf, b2]
      · simp
      · intro _ _ _ h; cases h

/-- every leaf shown is one below the root -/
def Seen {V : Type} (rv : Bool → Nat → Option (Blk V)) (nr root : Nat) : Event V → Prop
  | .visit _ _ es => ∃ b, BT.Reach rv nr root b ∧ rv true b = some (.leaf es)
  | _ => True

theorem phase1_seen {V : Type} {rv : Bool → Nat → Option (Blk V)} {root : Nat} {vis : List (Event V) → Event V → Bool} {path : List Nat} :
    ∀ (l : List (BT.KeyRange × Nat)) (s : WSt V), (∀ e ∈ s.log, Seen rv nr root e) → s.nr = nr →
      (∀ e ∈ (BT.phase1 vis path l s).1.log, Seen rv nr root e) ∧ (BT.phase1 vis path l s).1.nr = nr ∧ ∀ p ∈ (BT.phase1 vis path l s).2.2, p ∈ l ∧ p.2 < nr := by
  intro l
  induction l with
  | nil => intro s h hn; exact ⟨h, hn, fun p hp => by cases hp⟩
  | cons p l ih =>
    intro s h hn
    obtain ⟨kr, b⟩ := p
    unfold BT.phase1
    cases hi : s.smInc b with
    | none =>
      simp only
      obtain ⟨a1, a2, a3⟩ := ih s h hn
      exact ⟨a1, a2, fun p hp => ⟨by simp [(a3 p hp).1], (a3 p hp).2⟩⟩
    | some v =>
      obtain ⟨rc, t⟩ := v
      obtain ⟨m1, m2, m3, m4, m5, -, -⟩ := BT.smInc_spec hi
      have hlog : t.log = s.log := by
        unfold WSt.smInc at hi
        by_cases h1 : b < s.nr
        · rw [if_pos h1] at hi
          by_cases h2 : s.seen b < s.mx
          · rw [if_pos h2] at hi; cases hi; rfl
          · rw [if_neg h2] at hi
            by_cases h3 : s.sat = true
            · rw [if_pos h3] at hi; cases hi; rfl
            · rw [if_neg h3] at hi; cases hi
        · rw [if_neg h1] at hi; cases hi
      have hbn : b < nr := by
        unfold WSt.smInc at hi
        by_cases h1 : b < s.nr
        · rw [← hn]; exact h1
        · rw [if_neg h1] at hi; cases hi
      have ht : t.nr = nr := m1.nr.trans hn
      simp only
      by_cases h0 : rc = 0
      · rw [if_pos h0]
        obtain ⟨a1, a2, a3⟩ := ih t (by rw [hlog]; exact h) ht
        refine ⟨a1, a2, fun p hp => ?_⟩
        rcases List.mem_cons.mp hp with rfl | hp
        · exact ⟨by simp, hbn⟩
        · exact ⟨by simp [(a3 p hp).1], (a3 p hp).2⟩
      · rw [if_neg h0]
        by_cases hf : t.fails b = true
        · rw [if_pos hf]
          obtain ⟨a1, a2, a3⟩ := ih t (by rw [hlog]; exact h) ht
          exact ⟨a1, a2, fun p hp => ⟨by simp [(a3 p hp).1], (a3 p hp).2⟩⟩
        · rw [if_neg hf]
          obtain ⟨a1, a2, a3⟩ := ih (t.call vis (.again path b)).1 (by
            intro e he
            rcases List.mem_append.mp (show e ∈ t.log ++ [.again path b] from he) with he | he
            · rw [hlog] at he; exact h e he
            · rw [List.mem_singleton.mp he]; trivial) ht
          exact ⟨a1, a2, fun p hp => ⟨by simp [(a3 p hp).1], (a3 p hp).2⟩⟩

theorem walkNode_seen {V : Type} {rv : Bool → Nat → Option (Blk V)} (hrv : ∀ b n, rv false b = some n → rv true b = some n) {root : Nat} {vis : List (Event V) → Event V → Bool} :
    ∀ (fuel : Nat) (path : List Nat) (r : Bool) (kr : BT.KeyRange) (b : Nat) (s : WSt V), BT.Reach rv nr root b → (∀ e ∈ s.log, Seen rv nr root e) → s.nr = nr →
      (∀ e ∈ (BT.walkNode rv vis fuel path r kr b s).1.log, Seen rv nr root e) ∧ (BT.walkNode rv vis fuel path r kr b s).1.nr = nr := by
  have up : ∀ r b n, rv r b = some n → rv true b = some n := by
    intro r b n h
    cases r with
    | true => exact h
    | false => exact hrv b n h
  intro fuel
  induction fuel with
  | zero => intro path r kr b s _ h hn; exact ⟨h, hn⟩
  | succ fuel ih =>
    intro path r kr b s hb h hn
    unfold BT.walkNode
    cases hrd : rv r b with
    | none => exact ⟨h, hn⟩
    | some n =>
      cases n with
      | internal ch =>
        simp only
        cases hsp : BT.splitKeyRanges kr (ch.map (·.1)) with
        | none => exact ⟨h, hn⟩
        | some krs =>
          simp only
          obtain ⟨a1, a2, a3⟩ := phase1_seen (vis := vis) (path := path ++ [b]) (krs.zip (ch.map (·.2))) s h hn
          generalize hP : BT.phase1 vis (path ++ [b]) (krs.zip (ch.map (·.2))) s = P at a1 a2 a3
          have hkids : ∀ (l : List (BT.KeyRange × Nat)) (s : WSt V), (∀ p ∈ l, BT.Reach rv nr root p.2) → (∀ e ∈ s.log, Seen rv nr root e) → s.nr = nr →
              (∀ e ∈ (BT.phase2 (BT.walkNode rv vis fuel (path ++ [b]) false) l s).1.log, Seen rv nr root e) ∧
                (BT.phase2 (BT.walkNode rv vis fuel (path ++ [b]) false) l s).1.nr = nr := by
            intro l
            induction l with
            | nil => intro s _ h hn; exact ⟨h, hn⟩
            | cons p l ihl =>
              intro s hp h hn
              obtain ⟨c1, c2⟩ := ih (path ++ [b]) false p.1 p.2 s (hp p (by simp)) h hn
              exact ihl _ (fun q hq => hp q (by simp [hq])) c1 c2
          obtain ⟨c1, c2⟩ := hkids P.2.2 P.1 (fun p hp => by
            obtain ⟨h1, h2⟩ := a3 p hp
            obtain ⟨c, hc, e⟩ := List.mem_map.mp (List.of_mem_zip h1).2
            rw [← e] at h2 ⊢
            exact .child hb (up r b _ hrd) hc h2) a1 a2
          by_cases hr : ((if P.2.1 then Res.err else Res.ok).and (BT.phase2 (BT.walkNode rv vis fuel (path ++ [b]) false) P.2.2 P.1).2) = .err
          · rw [if_pos hr]; exact ⟨c1, c2⟩
          · rw [if_neg hr]; exact ⟨c1, c2⟩
      | leaf es =>
        simp only
        have hlog : ∀ e ∈ s.log ++ [Event.visit (path ++ [b]) kr es], Seen rv nr root e := by
          intro e he
          rcases List.mem_append.mp he with he | he
          · exact h e he
          · rw [List.mem_singleton.mp he]
            exact ⟨b, hb, up r b _ hrd⟩
        by_cases hv : (s.call vis (.visit (path ++ [b]) kr es)).2 = true
        · rw [if_pos hv]; exact ⟨hlog, hn⟩
        · rw [if_neg hv]; exact ⟨hlog, hn⟩

/-- a walk with a fresh count shows nothing but leaves it can reach -/
theorem walk_seen {V : Type} {nr : Nat} {rv : Bool → Nat → Option (Blk V)} (hrv : ∀ b n, rv false b = some n → rv true b = some n) (vis : List (Event V) → Event V → Bool) (path : List Nat) (root : Nat) :
    ∀ e ∈ (BT.walk (fun b => decide (b < nr)) rv vis (nr + 1) path root (WSt.fresh nr 1 true)).1.log, Seen rv nr root e := by
  unfold BT.walk
  cases hi : (WSt.fresh (V := V) nr 1 true).smInc root with
  | none => intro e he; cases he
  | some v =>
    obtain ⟨rc, t⟩ := v
    obtain ⟨m1, m2, m3, -⟩ := BT.smInc_spec hi
    have hrc : ¬ rc > 0 := by rw [m3]; simp [WSt.fresh]
    have hlog : t.log = [] := by
      unfold WSt.smInc at hi
      by_cases h1 : root < (WSt.fresh (V := V) nr 1 true).nr
      · rw [if_pos h1] at hi
        by_cases h2 : (WSt.fresh (V := V) nr 1 true).seen root < (WSt.fresh (V := V) nr 1 true).mx
        · rw [if_pos h2] at hi; cases hi; rfl
        · exact absurd (show (0 : Nat) < 1 by omega) h2
      · rw [if_neg h1] at hi; cases hi
    simp only [if_neg hrc]
    cases hio : (!decide (root < nr)) with
    | true => simp only [if_true]; intro e he; rw [hlog] at he; cases he
    | false =>
      simp only [Bool.false_eq_true, if_false]
      intro e he
      rcases List.mem_append.mp (show e ∈ _ ++ [Event.endWalk] from he) with he | he
      · exact (walkNode_seen hrv (nr + 1) path true ⟨none, none⟩ root t .root (by rw [hlog]; intro e he; cases he) m1.nr).1 e he
      · rw [List.mem_singleton.mp he]; trivial

/-- what `btree_to_key_set` returns: the keys of the leaves below the root, in order -/
theorem keySet_spec {V : Type} {rv : Bool → Nat → Option (Blk V)} (hrv : ∀ r r' b, rv r b = rv r' b) {root : Nat} {ks : List Nat} (h : keySet rv nr root = some ks) :
    ks.Pairwise (· < ·) ∧ ∀ k, k ∈ ks ↔ ∃ b es, BT.Reach rv nr root b ∧ rv true b = some (.leaf es) ∧ k ∈ es.map (·.1) := by
  unfold keySet at h
  by_cases hok : (BT.walk (fun b => decide (b < nr)) rv (fun _ _ => true) (nr + 1) [0] root (WSt.fresh nr 1 true)).2 = .ok
  · simp only [if_pos hok, Option.some.injEq] at h
    subst h
    obtain ⟨a1, a2⟩ := keysOf_spec (BT.walk (fun b => decide (b < nr)) rv (fun _ _ => true) (nr + 1) [0] root (WSt.fresh nr 1 true)).1.log [] List.Pairwise.nil
    refine ⟨a1, fun k => ?_⟩
    rw [a2]
    have hcov := BT.walk_ok_covers (fun b => decide (b < nr)) rv (fun b n h => by rw [hrv true false]; exact h) (fun _ _ => true) nr 1 (by omega) true (nr + 1) [0] root hok
    constructor
    · rintro (h | ⟨p, kr, es, h1, h2⟩)
      · cases h
      · have hs := walk_seen (nr := nr) (rv := rv) (fun b n h => by rw [hrv true false]; exact h) (fun _ _ => true) [0] root
        obtain ⟨b, hb1, hb2⟩ := hs _ h1
        exact ⟨b, es, hb1, hb2, h2⟩
    · rintro ⟨b, es, h1, h2, h3⟩
      have := hcov b h1
      unfold BT.Covered at this
      rw [h2] at this
      obtain ⟨pre, post, path, kr, hl, -⟩ := this
      exact Or.inr ⟨path ++ [b], kr, es, by rw [hl]; simp, h3⟩
  · simp only [if_neg hok] at h
    cases h

/-- the keys of a tree are those of the leaves the walker can reach -/
theorem tree_keys {V α : Type} {key : α → Nat} {rv : Bool → Nat → Option (Blk V)} {leafAt : Nat → List α → Prop} {P : List α → Prop}
    (hint : ∀ b blk ch, rd b = some (.internal blk ch) → rv true b = some (.internal ch))
    (hleaf : ∀ b l, leafAt b l → ∃ es, rv true b = some (.leaf es) ∧ es.map (·.1) = l.map key) {root : Nat} {l : List α} (h : Tree rd nr leafAt P root l) :
    ∀ k, k ∈ l.map key ↔ ∃ b es, BT.Reach rv nr root b ∧ rv true b = some (.leaf es) ∧ k ∈ es.map (·.1) := by
  have lt : ∀ {b l}, Tree rd nr leafAt P b l → b < nr := by
    intro b l h
    cases h <;> assumption
  intro k
  constructor
  · have : ∀ {b l}, Tree rd nr leafAt P b l → BT.Reach rv nr root b → k ∈ l.map key → ∃ b es, BT.Reach rv nr root b ∧ rv true b = some (.leaf es) ∧ k ∈ es.map (·.1) := by
      intro b l h
      induction h with
      | leaf b l hb hl =>
        intro hr hk
        obtain ⟨es, h1, h2⟩ := hleaf b l hl
        exact ⟨b, es, hr, h1, by rw [h2]; exact hk⟩
      | node b blk ch kid hb hrd hne hkid hP ih =>
        intro hr hk
        rw [List.map_flatMap, List.mem_flatMap] at hk
        obtain ⟨c, hc, hk⟩ := hk
        exact ih c hc (.child hr (hint b blk ch hrd) hc (lt (hkid c hc))) hk
    exact this h .root
  · rintro ⟨b, es, h1, h2, h3⟩
    have : ∀ b, BT.Reach rv nr root b → ∃ l', Tree rd nr leafAt P b l' ∧ ∀ x ∈ l'.map key, x ∈ l.map key := by
      intro b hb
      induction hb with
      | root => exact ⟨l, h, fun x hx => hx⟩
      | child _ hch hc hlt ih =>
        obtain ⟨l', ht, hsub⟩ := ih
        cases ht with
        | leaf _ _ hb' hl' =>
          obtain ⟨es, e1, -⟩ := hleaf _ _ hl'
          rw [hch] at e1
          cases e1
        | node _ blk ch' kid _ hrd _ hkid _ =>
          rw [hint _ _ _ hrd] at hch
          cases hch
          refine ⟨_, hkid _ hc, fun x hx => hsub x ?_⟩
          rw [List.map_flatMap, List.mem_flatMap]
          exact ⟨_, hc, hx⟩
    obtain ⟨l', ht, hsub⟩ := this b h1
    cases ht with
    | leaf _ _ hb' hl' =>
      obtain ⟨es', e1, e2⟩ := hleaf _ _ hl'
      rw [h2] at e1
      cases e1
      exact hsub k (by rw [← e2]; exact h3)
    | node _ blk ch' kid _ hrd _ hkid _ =>
      rw [hint _ _ _ hrd] at h2
      cases h2

theorem sorted_ext : ∀ {a b : List Nat}, a.Pairwise (· < ·) → b.Pairwise (· < ·) → (∀ x, x ∈ a ↔ x ∈ b) → a = b := by
  intro a
  induction a with
  | nil =>
    intro b _ _ h
    cases b with
    | nil => rfl
    | cons y b => exact absurd ((h y).mpr (by simp)) (by simp)
  | cons x a ih =>
    intro b ha hb h
    cases b with
    | nil => exact absurd ((h x).mp (by simp)) (by simp)
    | cons y b =>
      obtain ⟨a1, a2⟩ := List.pairwise_cons.mp ha
      obtain ⟨b1, b2⟩ := List.pairwise_cons.mp hb
      have hxy : x = y := by
        rcases List.mem_cons.mp ((h x).mp (by simp)) with e | e
        · exact e
        · rcases List.mem_cons.mp ((h y).mpr (by simp)) with e' | e'
          · exact e'.symm
          · have := b1 x e; have := a1 y e'; omega
      subst hxy
      rw [ih a2 b2]
      intro z
      constructor
      · intro hz
        rcases List.mem_cons.mp ((h z).mp (by simp [hz])) with e | e
        · have := a1 z hz; omega
        · exact e
      · intro hz
        rcases List.mem_cons.mp ((h z).mpr (by simp [hz])) with e | e
        · have := b1 z hz; omega
        · exact e

/-- C46: roots count as having the same devices only if they do. -/
theorem identical_sound {b b' : Nat} (h : identical rd nr b b' = true) {P P' Q} {l : List Device} {l' : List (Nat × DeviceDetail)}
    (ht : DevTree rd nr P Q b l) (ht' : DetTree rd nr P' b' l') (hs : (l.map (·.dev)).Pairwise (· < ·)) (hs' : (l'.map (·.1)).Pairwise (· < ·)) :
    l.map (·.dev) = l'.map (·.1) := by
  unfold identical at h
  cases h1 : keySet (rd64 rd) nr b with
  | none => rw [h1] at h; cases h
  | some ks =>
    cases h2 : keySet (rdDet rd) nr b' with
    | none => rw [h1, h2] at h; cases h
    | some ks' =>
      rw [h1, h2] at h
      have e : ks = ks' := of_decide_eq_true h
      obtain ⟨k1, k2⟩ := keySet_spec (fun _ _ _ => rfl) h1
      obtain ⟨k3, k4⟩ := keySet_spec (fun _ _ _ => rfl) h2
      have t1 := tree_keys (key := fun d : Device => d.dev) (rv := rd64 rd) (fun b blk ch hr => by simp [rd64, hr]) (fun b l hl => by
        obtain ⟨blk, hr, -⟩ := hl
        exact ⟨_, by simp [rd64, hr]; rfl, by rw [List.map_map]; rfl⟩) ht
      have t2 := tree_keys (key := fun d : Nat × DeviceDetail => d.1) (rv := rdDet rd) (fun b blk ch hr => by simp [rdDet, hr]) (fun b l hl => by
        obtain ⟨blk, hr⟩ := hl
        exact ⟨l, by simp [rdDet, hr], rfl⟩) ht'
      rw [sorted_ext hs k1 (fun x => (t1 x).trans (k2 x).symm), sorted_ext hs' k3 (fun x => (t2 x).trans (k4 x).symm), e]

theorem insKey_last (k : Nat) : ∀ (l : List Nat), (∀ x ∈ l, x < k) → insKey k l = l ++ [k] := by
  intro l
  induction l with
  | nil => intro _; rfl
  | cons y l ih =>
    intro h
    have h1 := h y (by simp)
    rw [insKey, if_neg (by omega), if_neg (by omega), ih (fun q hq => h q (by simp [hq]))]
    rfl

/-- the keys of a clean search tree -/
theorem keySet_clean {V : Type} {mem : Nat → Option (Blk V)} {h : Nat} {t : BT.Tree V h} (hc : LW.Clean mem nr h t) :
    keySet (fun _ b => mem b) nr (t.blk h) = some ((t.contents h).map (·.1)) := by
  have hroot : t.blk h < nr := hc.bound _ (by cases h <;> simp [BT.Tree.blk, BT.Tree.blocks])
  obtain ⟨h1, h2⟩ := BT.walk_clean (fun b => decide (b < nr)) (fun _ b => mem b) (fun _ _ => true) (fun _ _ => rfl) h t nr 1 (by omega) true
    (nr + 1) (by have := hc.height; omega) [0] (by simpa using hroot) hc.stored hc.ordered hc.noEmpty hc.nodup hc.bound
  have hk : keySet (fun _ b => mem b) nr (t.blk h) = some (keysOf (BT.walk (fun b => decide (b < nr)) (fun _ b => mem b) (fun _ _ => true) (nr + 1) [0] (t.blk h) (WSt.fresh nr 1 true)).1.log []) := by
    unfold keySet
    simp only [h1, if_true]
  rw [hk]
  congr 1
  obtain ⟨s1, s2⟩ := keySet_spec (fun _ _ _ => rfl) hk
  have hsort := LW.ordered_sorted h t 0 none hc.ordered
  refine sorted_ext s1 (by rw [List.pairwise_map]; exact hsort) ?_
  rw [h2]
  intro k
  rw [(keysOf_spec _ [] List.Pairwise.nil).2]
  have key : ∀ (h : Nat) (path : List Nat) (kr : BT.KeyRange) (t : BT.Tree V h), (∃ p kr' es, Event.visit p kr' es ∈ BT.leafEvents h path kr t ∧ k ∈ es.map (·.1)) ↔ k ∈ (t.contents h).map (·.1) := by
    intro h
    induction h with
    | zero =>
      intro path kr t
      constructor
      · rintro ⟨p, kr', es, h1, h2⟩
        rw [List.mem_singleton.mp h1 |> Event.visit.inj |>.2.2] at h2
        exact h2
      · intro hk; exact ⟨_, _, _, List.mem_singleton.mpr rfl, hk⟩
    | succ h ih =>
      intro path kr t
      have : ∀ (l : List (Nat × BT.Tree V h)), (∃ p kr' es, Event.visit p kr' es ∈ BT.eachRange (BT.leafEvents h (path ++ [t.1])) kr.fin l ∧ k ∈ es.map (·.1)) ↔
          k ∈ (l.flatMap fun c => BT.Tree.contents h c.2).map (·.1) := by
        intro l
        induction l with
        | nil => simp [BT.eachRange]
        | cons c l ihl =>
          obtain ⟨k', c⟩ := c
          rw [List.flatMap_cons, List.map_append, List.mem_append, ← ih (path ++ [t.1]) ⟨some k', BT.nextKey kr.fin l⟩ c, ← ihl]
          constructor
          · rintro ⟨p, kr', es, h1, h2⟩
            rcases List.mem_append.mp h1 with h1 | h1
            · exact Or.inl ⟨p, kr', es, h1, h2⟩
            · exact Or.inr ⟨p, kr', es, h1, h2⟩
          · rintro (⟨p, kr', es, h1, h2⟩ | ⟨p, kr', es, h1, h2⟩)
            · exact ⟨p, kr', es, List.mem_append.mpr (Or.inl h1), h2⟩
            · exact ⟨p, kr', es, List.mem_append.mpr (Or.inr h1), h2⟩
      exact this t.2
  rw [← key h [0] ⟨none, none⟩ t]
  constructor
  · rintro (h | ⟨p, kr, es, h1, h2⟩)
    · cases h
    · rcases List.mem_append.mp h1 with h1 | h1
      · exact ⟨p, kr, es, h1, h2⟩
      · cases List.mem_singleton.mp h1
  · rintro ⟨p, kr, es, h1, h2⟩
    exact Or.inr ⟨p, kr, es, List.mem_append.mpr (Or.inl h1), h2⟩

/-- C46: clean trees with the same devices count as such. -/
theorem identical_clean {h h' : Nat} {t : BT.Tree Nat h} {t' : BT.Tree DeviceDetail h'} (hc : LW.Clean (rd64 rd true) nr h t) (hc' : LW.Clean (rdDet rd true) nr h' t')
    (he : (t.contents h).map (·.1) = (t'.contents h').map (·.1)) : identical rd nr (t.blk h) (t'.blk h') = true := by
  have h1 : keySet (rd64 rd) nr (t.blk h) = some ((t.contents h).map (·.1)) := keySet_clean hc
  have h2 : keySet (rdDet rd) nr (t'.blk h') = some ((t'.contents h').map (·.1)) := keySet_clean hc'
  unfold identical
  rw [h1, h2]
  exact decide_eq_true he

end Verif.Rep
