import Verif.Model.Generators
import Verif.Prop.CacheRestoreCheck

/-!
# C71: what `cache_generate_metadata` produces
-/

namespace Verif.Gen

open Verif.CacheM (SbIr Ev docOf Valid)

/-! ## Specification -/

/-- The mappings and hints of a generated cache: in the order of the cache blocks, which exist; no origin block twice, all of them exist; as many as the parameters ask
for; and one hint of four zero bytes for each mapping. -/
structure CacheSpec (p : CacheParams) (ms : List (Nat × Nat × Bool)) (hs : List (Nat × Bytes)) : Prop where
  sorted : ms.Pairwise fun a b => a.1 < b.1
  cblocks : ∀ m ∈ ms, m.1 < p.nrCache
  origins : ms.Pairwise fun a b => a.2.1 ≠ b.2.1
  oblocks : ∀ m ∈ ms, m.2.1 < p.nrOrigin ∧ m.2.1 < 2 ^ 32
  number : ms.length = min p.nrCache (nrResident p)
  hints : hs = ms.map fun m => (m.1, [0, 0, 0, 0])

/-! ## The origin blocks -/

theorem mem_insertSorted {x y : Nat} : ∀ {l : List Nat}, y ∈ insertSorted x l ↔ y = x ∨ y ∈ l := by
  intro l
  induction l with
  | nil => simp [insertSorted]
  | cons z l ih =>
    unfold insertSorted
    by_cases c1 : x < z
    · rw [if_pos c1]; simp
    · rw [if_neg c1]
      by_cases c2 : x = z
      · rw [if_pos c2]
        simp only [List.mem_cons]
        constructor
        · rintro (h | h)
          · exact .inr (.inl h)
          · exact .inr (.inr h)
        · rintro (h | h | h)
          · exact .inl (h.trans c2)
          · exact .inl h
          · exact .inr h
      · rw [if_neg c2]
        simp only [List.mem_cons, ih]
        constructor
        · rintro (h | h | h)
          · exact .inr (.inl h)
          · exact .inl h
          · exact .inr (.inr h)
        · rintro (h | h | h)
          · exact .inr (.inl h)
          · exact .inl h
          · exact .inr (.inr h)

theorem insertSorted_sorted {x : Nat} : ∀ {l : List Nat}, l.Pairwise (· < ·) → (insertSorted x l).Pairwise (· < ·) := by
  intro l
  induction l with
  | nil => intro _; simp [insertSorted]
  | cons z l ih =>
    intro h
    have hz := List.pairwise_cons.mp h
    unfold insertSorted
    by_cases c1 : x < z
    · rw [if_pos c1]
      refine List.pairwise_cons.mpr ⟨fun y hy => ?_, h⟩
      rcases List.mem_cons.mp hy with rfl | hy
      · exact c1
      · have := hz.1 y hy; omega
    · rw [if_neg c1]
      by_cases c2 : x = z
      · rw [if_pos c2]; exact h
      · rw [if_neg c2]
        refine List.pairwise_cons.mpr ⟨fun y hy => ?_, ih hz.2⟩
        rcases mem_insertSorted.mp hy with rfl | hy
        · omega
        · exact hz.1 y hy

theorem insertSorted_length {x : Nat} : ∀ {l : List Nat}, x ∉ l → (insertSorted x l).length = l.length + 1 := by
  intro l
  induction l with
  | nil => intro _; rfl
  | cons z l ih =>
    intro h
    rw [List.mem_cons, not_or] at h
    unfold insertSorted
    by_cases c1 : x < z
    · rw [if_pos c1]; rfl
    · rw [if_neg c1, if_neg h.1, List.length_cons, ih h.2, List.length_cons]

/-- the set in the making -/
structure OInv (p : CacheParams) (s : OSt) : Prop where
  sorted : s.set.Pairwise (· < ·)
  total : s.total = s.set.length
  bound : ∀ x ∈ s.set, x < p.nrOrigin ∧ x < 2 ^ 32
  most : s.total ≤ nrResident p

theorem hotRun_spec (p : CacheParams) (ob : Nat) : ∀ (n i : Nat) (s : OSt), OInv p s →
    OInv p (hotRun p ob n i s).1 ∧ (∀ x ∈ s.set, x ∈ (hotRun p ob n i s).1.set) ∧
    ((hotRun p ob n i s).2 = true → (hotRun p ob n i s).1.total = nrResident p) := by
  intro n
  induction n with
  | zero => intro i s h; exact ⟨h, fun _ hx => hx, fun hb => by cases hb⟩
  | succ n ih =>
    intro i s h
    unfold hotRun
    by_cases c1 : s.total ≥ nrResident p
    · rw [if_pos c1]
      exact ⟨h, fun _ hx => hx, fun _ => by have := h.most; show s.total = _; omega⟩
    · rw [if_neg c1]
      by_cases c2 : ob + i ≥ p.nrOrigin
      · rw [if_pos c2]
        exact ⟨h, fun _ hx => hx, fun hb => by cases hb⟩
      · rw [if_neg c2]
        by_cases c3 : (ob + i) % 2 ^ 32 ∈ s.set
        · rw [if_pos c3]; exact ih (i + 1) s h
        · rw [if_neg c3]
          have hi : OInv p ⟨insertSorted ((ob + i) % 2 ^ 32) s.set, s.total + 1⟩ := by
            refine ⟨insertSorted_sorted h.sorted, ?_, ?_, ?_⟩
            · show s.total + 1 = _
              rw [insertSorted_length c3, h.total]
            · intro x hx
              rcases mem_insertSorted.mp hx with rfl | hx
              · have := Nat.mod_le (ob + i) (2 ^ 32)
                have := Nat.mod_lt (ob + i) (show 0 < 2 ^ 32 by decide)
                omega
              · exact h.bound x hx
            · show s.total + 1 ≤ _; omega
          obtain ⟨g1, g2, g3⟩ := ih (i + 1) _ hi
          exact ⟨g1, fun x hx => g2 x (mem_insertSorted.mpr (.inr hx)), g3⟩

theorem pick_spec (p : CacheParams) : ∀ (draws : List Nat) (s : OSt) (o : List Nat), OInv p s → pick p draws s = some o →
    o.Pairwise (· < ·) ∧ o.length = nrResident p ∧ ∀ x ∈ o, x < p.nrOrigin ∧ x < 2 ^ 32 := by
  intro draws
  induction draws with
  | nil => intro s o _ h; cases h
  | cons ob draws ih =>
    intro s o hs h
    obtain ⟨g1, _, g3⟩ := hotRun_spec p ob p.hotspot 0 s hs
    unfold pick at h
    simp only at h
    by_cases c : (hotRun p ob p.hotspot 0 s).2 = true
    · rw [if_pos c] at h
      cases h
      exact ⟨g1.sorted, by rw [← g1.total, g3 c], g1.bound⟩
    · rw [if_neg c] at h
      exact ih _ o g1 h

/-! ## The document -/

theorem pairwise_of_nodup_map {α : Type} (f : α → Nat) : ∀ {l : List α}, (l.map f).Nodup → l.Pairwise fun a b => f a ≠ f b := by
  intro l h
  exact List.pairwise_map.mp h

theorem zip_fst_sublist : ∀ (a b : List Nat), ((a.zip b).map (·.1)).Sublist a := by
  intro a
  induction a with
  | nil => intro b; simp
  | cons x a ih =>
    intro b
    cases b with
    | nil => simp
    | cons y b => rw [List.zip_cons_cons, List.map_cons]; exact (ih b).cons_cons x

theorem zip_snd_eq : ∀ (a b : List Nat), b.length ≤ a.length → (a.zip b).map (·.2) = b := by
  intro a
  induction a with
  | nil => intro b h; simp at h; simp [h]
  | cons x a ih =>
    intro b h
    cases b with
    | nil => simp
    | cons y b => rw [List.zip_cons_cons, List.map_cons, ih b (by simpa using h)]

theorem insertBy_perm {α : Type} (f : α → Nat) (x : α) : ∀ l : List α, (insertBy f x l).Perm (x :: l) := by
  intro l
  induction l with
  | nil => exact List.Perm.refl _
  | cons y l ih =>
    unfold insertBy
    by_cases c : f x ≤ f y
    · rw [if_pos c]
    · rw [if_neg c]; exact (ih.cons y).trans (List.Perm.swap x y l)

theorem sortBy_perm {α : Type} (f : α → Nat) : ∀ l : List α, (sortBy f l).Perm l := by
  intro l
  induction l with
  | nil => exact List.Perm.refl _
  | cons x l ih => exact (insertBy_perm f x _).trans (ih.cons x)

theorem insertBy_sorted {α : Type} (f : α → Nat) (x : α) : ∀ l : List α, l.Pairwise (fun a b => f a ≤ f b) → (insertBy f x l).Pairwise fun a b => f a ≤ f b := by
  intro l
  induction l with
  | nil => intro _; simp [insertBy]
  | cons y l ih =>
    intro h
    have hy := List.pairwise_cons.mp h
    unfold insertBy
    by_cases c : f x ≤ f y
    · rw [if_pos c]
      refine List.pairwise_cons.mpr ⟨fun z hz => ?_, h⟩
      rcases List.mem_cons.mp hz with rfl | hz
      · exact c
      · have := hy.1 z hz; omega
    · rw [if_neg c]
      refine List.pairwise_cons.mpr ⟨fun z hz => ?_, ih hy.2⟩
      rcases List.mem_cons.mp ((insertBy_perm f x l).mem_iff.mp hz) with rfl | hz
      · omega
      · exact hy.1 z hz

theorem sortBy_sorted {α : Type} (f : α → Nat) : ∀ l : List α, (sortBy f l).Pairwise fun a b => f a ≤ f b := by
  intro l
  induction l with
  | nil => exact List.Pairwise.nil
  | cons x l ih => exact insertBy_sorted f x _ ih

theorem sort_strict {α : Type} (f : α → Nat) {l : List α} (h : (l.map f).Nodup) : (sortBy f l).Pairwise fun a b => f a < f b := by
  have h2 := pairwise_of_nodup_map f (((sortBy_perm f l).map f).nodup_iff.mpr h)
  refine (List.pairwise_and_iff.mpr ⟨sortBy_sorted f l, h2⟩).imp ?_
  rintro a b ⟨x, y⟩
  omega

/-- two increasing lists with the same elements are equal -/
theorem sorted_unique : ∀ {a b : List Nat}, a.Pairwise (· < ·) → b.Pairwise (· < ·) → a.Perm b → a = b := by
  intro a b ha hb hp
  exact List.Perm.eq_of_pairwise (fun x y _ _ h1 h2 => by omega) ha hb hp

/-- the mappings of the document -/
def genMaps (dirty : Nat → Bool) (maps : List (Nat × Nat)) : List (Nat × Nat × Bool) := maps.mapIdx fun i m => (m.2, m.1, dirty i)

theorem genMaps_fst (dirty : Nat → Bool) (maps : List (Nat × Nat)) : (genMaps dirty maps).map (fun m => (m.2.1, m.1)) = maps := by
  apply List.ext_getElem?
  intro i
  simp only [genMaps, List.getElem?_map, List.getElem?_mapIdx]
  cases maps[i]? with
  | none => rfl
  | some m => rfl

theorem mem_genMaps {dirty : Nat → Bool} {maps : List (Nat × Nat)} {m : Nat × Nat × Bool} (h : m ∈ genMaps dirty maps) : (m.2.1, m.1) ∈ maps := by
  rw [← genMaps_fst dirty maps]
  exact List.mem_map.mpr ⟨m, h, rfl⟩

theorem genMaps_pairwise {dirty : Nat → Bool} {maps : List (Nat × Nat)} {R : Nat × Nat → Nat × Nat → Prop} (h : maps.Pairwise R) :
    (genMaps dirty maps).Pairwise fun a b => R (a.2.1, a.1) (b.2.1, b.1) := by
  rw [← genMaps_fst dirty maps] at h
  exact List.pairwise_map.mp h

/-- **C71**, `cache_generate_metadata`: whatever the shuffle and the draws, a document that is generated describes a cache as asked for. -/
theorem cacheGen_exact (p : CacheParams) (shuffled draws : List Nat) (dirty : Nat → Bool) (hsh : shuffled.Perm (List.range p.nrCache)) (es : List Ev)
    (h : cacheGen p shuffled draws dirty = some es) :
    ∃ (ms : List (Nat × Nat × Bool)) (hs : List (Nat × Bytes)), es = docOf (cacheSb p) ms hs ∧ CacheSpec p ms hs := by
  unfold cacheGen at h
  by_cases c0 : p.nrOrigin = 0
  · rw [if_pos c0] at h; cases h
  rw [if_neg c0] at h
  simp only at h
  cases hp : pick p draws ⟨[], 0⟩ with
  | none => rw [hp] at h; cases h
  | some o =>
    rw [hp] at h
    simp only at h
    obtain ⟨o1, o2, o3⟩ := pick_spec p draws ⟨[], 0⟩ o ⟨List.Pairwise.nil, rfl, fun x hx => (by cases hx), Nat.zero_le _⟩ hp
    by_cases c1 : p.percentDirty > 100 ∧ cacheMaps o (shuffled.take (nrResident p)) ≠ []
    · rw [if_pos c1] at h; cases h
    rw [if_neg c1] at h
    cases h
    have hlen : (shuffled.take (nrResident p)).length = min (nrResident p) p.nrCache := by
      rw [List.length_take, hsh.length_eq, List.length_range]
    have hnd : (shuffled.take (nrResident p)).Nodup := (hsh.nodup_iff.mpr List.nodup_range).sublist (List.take_sublist _ _)
    have hsnd := zip_snd_eq o (shuffled.take (nrResident p)) (by rw [hlen, o2]; omega)
    have hperm : (cacheMaps o (shuffled.take (nrResident p))).Perm (o.zip (shuffled.take (nrResident p))) := sortBy_perm _ _
    have hsort := sort_strict (fun m : Nat × Nat => m.2) (l := o.zip (shuffled.take (nrResident p))) (by rw [hsnd]; exact hnd)
    have hmem : ∀ m ∈ cacheMaps o (shuffled.take (nrResident p)), m.1 ∈ o ∧ m.2 ∈ shuffled := by
      intro m hm
      have := hperm.mem_iff.mp hm
      obtain ⟨m1, m2⟩ := m
      exact ⟨(List.of_mem_zip this).1, List.mem_of_mem_take (List.of_mem_zip this).2⟩
    have hkeys : (genMaps dirty (cacheMaps o (shuffled.take (nrResident p)))).map (·.1) = sortBy id (shuffled.take (nrResident p)) := by
      have e : (genMaps dirty (cacheMaps o (shuffled.take (nrResident p)))).map (·.1) = (cacheMaps o (shuffled.take (nrResident p))).map (·.2) := by
        conv => rhs; rw [← genMaps_fst dirty (cacheMaps o (shuffled.take (nrResident p))), List.map_map]
        rfl
      rw [e]
      refine sorted_unique (List.pairwise_map.mpr hsort) (sort_strict id (by rw [List.map_id]; exact hnd)) ?_
      refine (hperm.map (·.2)).trans ?_
      rw [hsnd]
      exact (sortBy_perm _ _).symm
    refine ⟨genMaps dirty (cacheMaps o (shuffled.take (nrResident p))), _, ?_, ⟨genMaps_pairwise (R := fun a b => a.2 < b.2) hsort, ?_, ?_, ?_, ?_, rfl⟩⟩
    · unfold docOf mapEvents hintEvents
      congr 2
      · congr 2
        apply List.ext_getElem?
        intro i
        simp only [genMaps, List.getElem?_map, List.getElem?_mapIdx]
        cases (cacheMaps o (shuffled.take (nrResident p)))[i]? with
        | none => rfl
        | some m => rfl
      · rw [← hkeys, List.map_map, List.map_map]
        rfl
    · intro m hm
      have := hsh.mem_iff.mp (hmem _ (mem_genMaps hm)).2
      simpa using this
    · refine genMaps_pairwise (R := fun a b => a.1 ≠ b.1) (pairwise_of_nodup_map (fun m : Nat × Nat => m.1) ?_)
      refine (hperm.map (·.1)).nodup_iff.mpr (List.Nodup.sublist (zip_fst_sublist _ _) ?_)
      exact o1.imp (fun h => by omega)
    · intro m hm
      exact o3 _ (hmem _ (mem_genMaps hm)).1
    · rw [genMaps, List.length_mapIdx, hperm.length_eq, List.length_zip, hlen, o2]
      omega

theorem CacheSpec.valid {p : CacheParams} {ms : List (Nat × Nat × Bool)} {hs : List (Nat × Bytes)} (h : CacheSpec p ms hs) : Valid p.nrCache ms hs := by
  refine ⟨fun m hm => ⟨h.cblocks m hm, ?_⟩, h.sorted, ?_, ?_⟩
  · have := (h.oblocks m hm).2
    omega
  · intro x hx
    rw [h.hints] at hx
    obtain ⟨m, hm, rfl⟩ := List.mem_map.mp hx
    exact ⟨h.cblocks m hm, rfl⟩
  · rw [h.hints]
    exact List.pairwise_map.mpr h.sorted

theorem mapsIn_docOf (sb : SbIr) (ms : List (Nat × Nat × Bool)) (hs : List (Nat × Bytes)) :
    ∃ body, docOf sb ms hs = body ++ [.eof] ∧ CacheM.sbsIn body = [sb] ∧ CacheM.mapsIn body = ms := by
  have m1 : ∀ (l : List (Nat × Nat × Bool)) (r : List Ev), CacheM.mapsIn (l.map (fun m => .mapping m.1 m.2.1 m.2.2) ++ r) = l ++ CacheM.mapsIn r := by
    intro l r
    induction l with
    | nil => rfl
    | cons m l ih => obtain ⟨a, b, c⟩ := m; simp only [List.map_cons, List.cons_append, CacheM.mapsIn, ih]
  have m2 : ∀ (l : List (Nat × Bytes)) (r : List Ev), CacheM.mapsIn (l.map (fun h => .hint h.1 h.2) ++ r) = CacheM.mapsIn r := by
    intro l r
    induction l with
    | nil => rfl
    | cons m l ih => simp only [List.map_cons, List.cons_append, CacheM.mapsIn, ih]
  have s1 : ∀ (l : List (Nat × Nat × Bool)) (r : List Ev), CacheM.sbsIn (l.map (fun m => .mapping m.1 m.2.1 m.2.2) ++ r) = CacheM.sbsIn r := by
    intro l r
    induction l with
    | nil => rfl
    | cons m l ih => simp only [List.map_cons, List.cons_append, CacheM.sbsIn, ih]
  have s2 : ∀ (l : List (Nat × Bytes)) (r : List Ev), CacheM.sbsIn (l.map (fun h => .hint h.1 h.2) ++ r) = CacheM.sbsIn r := by
    intro l r
    induction l with
    | nil => rfl
    | cons m l ih => simp only [List.map_cons, List.cons_append, CacheM.sbsIn, ih]
  refine ⟨[.superblockB sb, .mappingsB] ++ ms.map (fun m => .mapping m.1 m.2.1 m.2.2) ++ [.mappingsE, .hintsB] ++
    hs.map (fun h => .hint h.1 h.2) ++ [.hintsE, .superblockE], ?_, ?_, ?_⟩
  · unfold docOf; simp only [List.append_assoc, List.cons_append, List.nil_append]
  · simp only [List.append_assoc, List.cons_append, List.nil_append, CacheM.sbsIn, s1, s2]
  · simp only [List.append_assoc, List.cons_append, List.nil_append, CacheM.mapsIn, m1, m2, List.append_nil]

/-- **C71**: what `cache_generate_metadata` writes passes `cache_check`, which changes nothing; and the restorer accepts what is generated unless there is no space. -/
theorem cacheGen_check {epb : Nat} {cfg : CacheM.Cfg} (hv : cfg.version = 1 ∨ cfg.version = 2) {n max : Nat} (he8 : 0 < cfg.epb8) (he4 : 0 < cfg.epb4)
    (hL : 2 ≤ cfg.capL) (hI : 4 ≤ cfg.capI) (hz : CacheM.SmSize epb n) (hw : cfg.writeSm = CacheM.smWriter epb) {dev : Arr.ASt Nat} (hdev : CacheM.New n max dev)
    (p : CacheParams) (h0 : 0 < p.nrCache) (h32 : p.nrCache < 2 ^ 32) (shuffled draws : List Nat) (dirty : Nat → Bool) (hsh : shuffled.Perm (List.range p.nrCache))
    (es : List Ev) (h : cacheGen p shuffled draws dirty = some es) {wr : Nat → Bool} {sbWr : Bool} {o : CacheM.COpts} (hfull : o.full) :
    CacheM.RPost (CacheM.restore cfg true es dev) (fun r =>
      (CacheM.check wr sbWr o CacheM.rootIn (CacheM.imageOf cfg n r)).2 = none ∧
      (CacheM.check wr sbWr o CacheM.rootIn (CacheM.imageOf cfg n r)).1 = CacheM.imageOf cfg n r) := by
  obtain ⟨ms, hs, rfl, hspec⟩ := cacheGen_exact p shuffled draws dirty hsh es h
  have hacc := CacheM.restore_accepts (sb := cacheSb p) hv he8 he4 hL hI hz.n64 (CacheM.smWriter_ok hz max hw) true hspec.valid h0 hdev
  obtain ⟨body, e1, e2, e3⟩ := mapsIn_docOf (cacheSb p) ms hs
  rw [e1] at hacc ⊢
  cases hr : CacheM.restore cfg true (body ++ [.eof]) dev with
  | error e => rw [hr] at hacc; cases e with | arr a => (cases a <;> exact hacc) | _ => exact hacc
  | ok r =>
    have := CacheM.restore_check (wr := wr) (sbWr := sbWr) hv he8 he4 hL hI hz hw hdev hr e2 rfl h32 (by rw [e3]; exact fun m hm => (hspec.valid.maps m hm).2) hfull
    rw [e3] at this
    exact ⟨this.1.mpr hspec.origins, this.2 hspec.origins⟩

/-! ## Whether it ends -/

/-- **C71**: if the draws hit every origin block sooner or later the generator ends, for at most 2^32 origin blocks and a hotspot of at least one block. -/
theorem cacheGen_ends (p : CacheParams) (hh : 0 < p.hotspot) (h0 : 0 < p.nrOrigin) (h32 : p.nrOrigin ≤ 2 ^ 32) (hd : p.percentDirty ≤ 100) (shuffled draws : List Nat)
    (last : Nat) (dirty : Nat → Bool) (hr : ∀ b, b ∈ draws → b < p.nrOrigin) (hall : ∀ b, b < p.nrOrigin → b ∈ draws) :
    ∃ es, cacheGen p shuffled (draws ++ [last]) dirty = some es := by
  have key : ∀ (ds : List Nat) (s : OSt), OInv p s → (∀ b ∈ ds, b < p.nrOrigin) → (∀ b, b < p.nrOrigin → b ∈ s.set ∨ b ∈ ds) → ∃ o, pick p (ds ++ [last]) s = some o := by
    intro ds
    induction ds with
    | nil =>
      intro s hs _ hc
      have hlen : p.nrOrigin ≤ s.set.length := by
        have := List.Nodup.length_le_of_subset (List.nodup_range (n := p.nrOrigin)) (l₂ := s.set) (fun b hb => by
            rcases hc b (by simpa using hb) with h | h
            · exact h
            · cases h)
        simpa using this
      have hres : nrResident p ≤ p.nrOrigin := by
        unfold nrResident
        exact Nat.le_trans (Nat.mod_le _ _) (Nat.min_le_right _ _)
      obtain ⟨m, hm⟩ : ∃ m, p.hotspot = m + 1 := ⟨p.hotspot - 1, by omega⟩
      have : hotRun p last p.hotspot 0 s = (s, true) := by
        rw [hm]
        unfold hotRun
        rw [if_pos (by have := hs.total; omega)]
      refine ⟨s.set, ?_⟩
      show pick p [last] s = _
      unfold pick
      rw [this]
      rfl
    | cons ob ds ih =>
      intro s hs hb hc
      obtain ⟨g1, g2, _⟩ := hotRun_spec p ob p.hotspot 0 s hs
      show ∃ o, pick p (ob :: (ds ++ [last])) s = some o
      unfold pick
      simp only
      by_cases c : (hotRun p ob p.hotspot 0 s).2 = true
      · rw [if_pos c]; exact ⟨_, rfl⟩
      · rw [if_neg c]
        refine ih _ g1 (fun b h => hb b (List.mem_cons_of_mem _ h)) (fun b hlt => ?_)
        rcases hc b hlt with h | h
        · exact .inl (g2 b h)
        · rcases List.mem_cons.mp h with rfl | h
          · left
            obtain ⟨m, hm⟩ : ∃ m, p.hotspot = m + 1 := ⟨p.hotspot - 1, by omega⟩
            rw [hm] at c ⊢
            unfold hotRun at c ⊢
            by_cases c1 : s.total ≥ nrResident p
            · rw [if_pos c1] at c; exact absurd rfl c
            · rw [if_neg c1] at c ⊢
              rw [if_neg (by omega)] at c ⊢
              rw [Nat.add_zero, Nat.mod_eq_of_lt (by omega : b < 2 ^ 32)] at c ⊢
              by_cases c3 : b ∈ s.set
              · rw [if_pos c3]
                exact (hotRun_spec p b m 1 s hs).2.1 b c3
              · rw [if_neg c3]
                have hi : OInv p ⟨insertSorted b s.set, s.total + 1⟩ := by
                  refine ⟨insertSorted_sorted hs.sorted, ?_, ?_, ?_⟩
                  · show s.total + 1 = _
                    rw [insertSorted_length c3, hs.total]
                  · intro x hx
                    rcases mem_insertSorted.mp hx with rfl | hx
                    · omega
                    · exact hs.bound x hx
                  · show s.total + 1 ≤ _; omega
                exact (hotRun_spec p b m 1 _ hi).2.1 b (mem_insertSorted.mpr (.inl rfl))
          · exact .inr h
  obtain ⟨o, ho⟩ := key draws ⟨[], 0⟩ ⟨List.Pairwise.nil, rfl, fun x hx => (by cases hx), Nat.zero_le _⟩ hr (fun b hb => .inr (hall b hb))
  unfold cacheGen
  rw [if_neg (by omega)]
  simp only
  rw [ho]
  simp only
  rw [if_neg (by omega)]
  exact ⟨_, rfl⟩

/-- The claim without the condition is false: with a hotspot of no blocks the generator never ends, not even if nothing is to be resident. -/
theorem cacheGen_hotspot_refuted (p : CacheParams) (h : p.hotspot = 0) (shuffled draws : List Nat) (dirty : Nat → Bool) : cacheGen p shuffled draws dirty = none := by
  have : ∀ (ds : List Nat) (s : OSt), pick p ds s = none := by
    intro ds
    induction ds with
    | nil => intro _; rfl
    | cons ob ds ih =>
      intro s
      unfold pick
      rw [h]
      exact ih s
  unfold cacheGen
  by_cases c : p.nrOrigin = 0
  · rw [if_pos c]
  · rw [if_neg c]
    simp only
    rw [this]

/-! ## Example -/

def demoParams : CacheParams := { blockSize := 128, nrCache := 5, nrOrigin := 9, percentResident := 60, percentDirty := 40, hotspot := 2 }

def demoDoc : Option (List Ev) := cacheGen demoParams [3, 0, 4, 2, 1] [8, 2, 2, 5] (fun i => i == 1)

/-- three of five cache blocks are resident; the run at the last origin block is cut short -/
example : demoDoc = some (docOf (cacheSb demoParams) [(0, 3, false), (3, 2, true), (4, 8, false)] [(0, [0, 0, 0, 0]), (3, [0, 0, 0, 0]), (4, [0, 0, 0, 0])]) := by
  decide +kernel

example : [3, 0, 4, 2, 1].Perm (List.range demoParams.nrCache) := by decide

/-- what is generated is restored in both versions, and passes -/
example : (demoDoc.map fun es => (CacheM.restoredCheck 1 es, CacheM.restoredCheck 2 es)) = some (some none, some none) := by decide +kernel

end Verif.Gen
