import Verif.Model.CacheRestore
import Verif.Prop.CacheDump

/-!
# C33: `cache_restore`, and the round trip with `cache_dump`

The specification of a document is the list of its mappings and the list of its hints (`mapsIn`, `hintsIn`).
-/

namespace Verif.CacheM

open Verif.BT (Tree)
open Verif.Bld (Sorted)
open Verif.Arr (ASt AB AErr push completeArray divUp Part Ext Stored arrayOf part_new push_part push_part_pos complete_part)

/-! ## Specification -/

/-- the mappings of a document: cache block, origin block, dirty -/
def mapsIn : List Ev → List (Nat × Nat × Bool)
  | [] => []
  | .mapping c o d :: l => (c, o, d) :: mapsIn l
  | _ :: l => mapsIn l

/-- the superblock elements of a document -/
def sbsIn : List Ev → List SbIr
  | [] => []
  | .superblockB sb :: l => sb :: sbsIn l
  | _ :: l => sbsIn l

/-- the hints of a document -/
def hintsIn : List Ev → List (Nat × Bytes)
  | [] => []
  | .hint c d :: l => (c, d) :: hintsIn l
  | _ :: l => hintsIn l

/-- the document in the form `cache_dump` writes it -/
def docOf (sb : SbIr) (ms : List (Nat × Nat × Bool)) (hs : List (Nat × Bytes)) : List Ev :=
  [.superblockB sb, .mappingsB] ++ ms.map (fun m => .mapping m.1 m.2.1 m.2.2) ++ [.mappingsE, .hintsB] ++
    hs.map (fun h => .hint h.1 h.2) ++ [.hintsE, .superblockE, .eof]

/-- what a document for a cache of `nr` blocks must fulfil: increasing cache blocks in range, origin blocks of 48 bits, hints of
four bytes -/
structure Valid (nr : Nat) (ms : List (Nat × Nat × Bool)) (hs : List (Nat × Bytes)) : Prop where
  maps : ∀ m ∈ ms, m.1 < nr ∧ m.2.1 < 2 ^ 48
  mapsSorted : ms.Pairwise fun a b => a.1 < b.1
  hints : ∀ h ∈ hs, h.1 < nr ∧ h.2.length = 4
  hintsSorted : hs.Pairwise fun a b => a.1 < b.1

/-- the hint of a cache block: four zero bytes if the document has none -/
def hintOf (hs : List (Nat × Bytes)) (c : Nat) : Bytes :=
  match hs.find? (fun h => h.1 == c) with
  | some h => h.2
  | none => [0, 0, 0, 0]

/-- the call succeeds with `Q`, or fails for lack of metadata space only -/
def RPost {α : Type} (r : Except RErr α) (Q : α → Prop) : Prop :=
  match r with
  | .ok a => Q a
  | .error (.arr (.io e)) => e.Resource
  | .error _ => False

/-- assumption on `write_metadata_sm` (`CacheRestoreCheck.lean` proves it): it takes only free blocks, or fails for lack of space -/
def SmOk (n max : Nat) (cfg : Cfg) : Prop :=
  ∀ s : ASt Nat, SMD.Cursor n max s.bt → RPost (cfg.writeSm s) fun r => ∃ new, Arr.Grown n max s r.2.2 new

/-! ## Invariant -/

theorem RPost.mono {α : Type} {r : Except RErr α} {Q Q' : α → Prop} (h : RPost r Q) (hq : ∀ a, Q a → Q' a) : RPost r Q' := by
  match r, h with
  | .ok a, h => exact hq a h
  | .error (.arr (.io e)), h => exact h

theorem RPost.err {α β : Type} {e : RErr} {Q : α → Prop} {Q' : β → Prop} (h : RPost (.error e : Except RErr α) Q) :
    RPost (.error e : Except RErr β) Q' := by
  match e, h with
  | .arr (.io e), h => exact h

/-- the mapping builder's entry for a mapping -/
def wordOf (version : Nat) (m : Nat × Nat × Bool) : Nat × Nat := (m.1, mapWord ⟨m.2.1, if m.2.2 && version == 1 then 3 else 1⟩)

/-- the hint builder's entry for a hint -/
def hwordOf (h : Nat × Bytes) : Nat × Nat := (h.1, hintWord h.2)

/-- where a builder stands -/
def posOf (epb : Nat) (ab : AB Nat) : Nat := ab.blocks.length * epb + ab.values.length

/-- the dirty bitset under construction: `D` are the dirty blocks, all below `lim` -/
structure DPart (epb nr : Nat) (D : Nat → Prop) (lim : Nat) (db : AB Nat) (dirty : Nat × Nat) (ps : List (Nat × Nat)) (dev : ASt Nat) : Prop where
  part : Part epb (divUp nr 64) ps db dev
  pos : posOf epb db ≤ dirty.1
  below : ∀ p ∈ ps, p.1 < dirty.1
  lim : dirty.1 * 64 ≤ lim
  lt : dirty.1 = 0 ∨ dirty.1 * 64 < nr
  bits : ∀ c, (if c / 64 = dirty.1 then dirty.2 else arrayOf ps (c / 64)).testBit (c % 64) = true ↔ D c

/-- a builder's position: just after the last entry -/
def At {α : Type} (key : α → Nat) (l : List α) (p : Nat) : Prop := (∀ x ∈ l, key x < p) ∧ (p = 0 ∨ ∃ x ∈ l, p = key x + 1)

/-- the blocks marked dirty -/
def dirtyIn (ms : List (Nat × Nat × Bool)) (c : Nat) : Prop := ∃ m ∈ ms, m.1 = c ∧ m.2.2 = true

/-- the blocks that a builder has written -/
def written : Option (AB Nat) → List Nat
  | none => []
  | some ab => ab.blocks

/-- every block in use is the superblock's, part of the discard bitset (`Bw`), or written by one of the builders, and has one reference -/
def Acct (cfg : Cfg) (n : Nat) (s : RSt) : Prop :=
  ∃ (dr : Nat) (Bw : List Nat), s.discardRoot = some dr ∧ InBlocks cfg.epb8 0 n (arrayOf []) dr s.dev Bw ∧
    (∀ b, s.dev.bt.sm.abs b = (0 :: (Bw ++ (written s.mapB ++ (written s.dirtyB ++ written s.hintB)))).count b) ∧ ∀ b, s.dev.bt.sm.abs b ≤ 1

theorem InBlocks.grown {epb nr n max : Nat} {a : Nat → Nat} {root : Nat} {s s' : ASt Nat} {B new : List Nat} (h : InBlocks epb nr n a root s B)
    (g : Arr.Grown n max s s' new) : InBlocks epb nr n a root s' B := by
  obtain ⟨h, t, bs, h1, h2⟩ := h
  exact ⟨h, t, bs, h1.grown g, h2⟩

theorem InBlocks.ext {epb nr n max : Nat} {a : Nat → Nat} {root : Nat} {s s' : ASt Nat} {B new : List Nat} (h : InBlocks epb nr n a root s B)
    (g : Ext n max s s' new) : InBlocks epb nr n a root s' B := h.grown g.grown

/-- the restorer inside of the superblock element, after the mappings `ms` and the hints `hs` -/
structure Open (cfg : Cfg) (n max : Nat) (sb : SbIr) (ms : List (Nat × Nat × Bool)) (hs : List (Nat × Bytes)) (s : RSt) : Prop where
  hsb : s.sb = some sb
  sect : s.sect = .superblock ∨ s.sect = .mappings ∨ s.sect = .hints
  out : s.out = none
  sm : s.dev.bt.sm.Inv n max
  cur : SMD.Cursor n max s.dev.bt
  maps : ∃ ab, s.mapB = some ab ∧ Part cfg.epb8 sb.nrCacheBlocks (ms.map (wordOf cfg.version)) ab s.dev ∧
    At (·.1) ms (posOf cfg.epb8 ab) ∧
    (cfg.version = 2 → ∃ db ps, s.dirtyB = some db ∧
      DPart cfg.epb8 sb.nrCacheBlocks (dirtyIn ms) (posOf cfg.epb8 ab) db s.dirty ps s.dev)
  nodirty : cfg.version = 1 → s.dirtyB = none ∧ s.dirtyRoot = none
  hints : ∃ hb, s.hintB = some hb ∧ Part cfg.epb4 sb.nrCacheBlocks (hs.map hwordOf) hb s.dev ∧
    At (·.1) hs (posOf cfg.epb4 hb) ∧ ∀ h ∈ hs, h.2.length = 4
  discard : ∃ dr, s.discardRoot = some dr
  acct : Acct cfg n s
  order : (ms.Pairwise fun a b => a.1 < b.1) ∧ (hs.Pairwise fun a b => a.1 < b.1) ∧
    (∀ m ∈ ms, m.1 < sb.nrCacheBlocks) ∧ ∀ h ∈ hs, h.1 < sb.nrCacheBlocks

theorem DPart.ext {epb nr n max : Nat} {D : Nat → Prop} {lim : Nat} {db : AB Nat} {dirty : Nat × Nat} {ps : List (Nat × Nat)}
    {s s' : ASt Nat} {new : List Nat} (h : DPart epb nr D lim db dirty ps s) (g : Ext n max s s' new) : DPart epb nr D lim db dirty ps s' :=
  ⟨h.part.ext g, h.pos, h.below, h.lim, h.lt, h.bits⟩

theorem pushInto_post {epb nr n max : Nat} (he : 0 < epb) {dev : ASt Nat} {ps : List (Nat × Nat)} {ab : AB Nat}
    (h : Part epb nr ps ab dev) (hi : dev.bt.sm.Inv n max) {i : Nat} (v : Nat) (hn : i < nr) (hp : posOf epb ab ≤ i) :
    RPost (pushInto i v (some ab) dev) (fun r => Part epb nr (ps ++ [(i, v)]) r.1 r.2 ∧ posOf epb r.1 = i + 1 ∧
      ∃ new, r.1.blocks = ab.blocks ++ new ∧ Ext n max dev r.2 new) := by
  have := push_part he h hi v hn hp
  show RPost (match push i v ab dev with | .error e => .error (.arr e) | .ok r => .ok r) _
  cases e : push i v ab dev with
  | error err => rw [e] at this; cases err <;> exact this
  | ok r =>
    rw [e] at this
    exact this

theorem pushInto_ok {epb nr : Nat} (he : 0 < epb) {dev : ASt Nat} {ps : List (Nat × Nat)} {ab : AB Nat}
    (h : Part epb nr ps ab dev) {i v : Nat} {r : AB Nat × ASt Nat} (hr : pushInto i v (some ab) dev = .ok r) :
    i < nr ∧ posOf epb ab ≤ i := by
  unfold pushInto at hr
  simp only at hr
  cases e : push i v ab dev with
  | error err => rw [e] at hr; cases hr
  | ok r => exact push_part_pos he h v e

theorem testBit_mask (c j : Nat) : ((1 <<< (c &&& 63)) % 2 ^ 64).testBit j = decide (j = c % 64) := by
  rw [Nat.and_two_pow_sub_one_eq_mod c 6, show (2 : Nat) ^ 6 = 64 from rfl, Nat.one_shiftLeft]
  have h := Nat.mod_lt c (show 0 < 64 by omega)
  rw [Nat.mod_eq_of_lt (Nat.pow_lt_pow_right (by omega) h), Nat.testBit_two_pow]
  exact decide_eq_decide.mpr eq_comm

theorem word_eq (c : Nat) : c >>> 6 = c / 64 := by rw [Nat.shiftRight_eq_div_pow]

theorem setDirty_post {cfg : Cfg} {nr n max : Nat} (he : 0 < cfg.epb8) {s : RSt} {db : AB Nat} {D : Nat → Prop} {lim : Nat} {ps : List (Nat × Nat)}
    (hdb : s.dirtyB = some db) (hd : DPart cfg.epb8 nr D lim db s.dirty ps s.dev) (hi : s.dev.bt.sm.Inv n max) {c : Nat} (hc : c < nr)
    (hl : lim ≤ c) :
    RPost (setDirty c s) (fun r => ∃ (db' : AB Nat) (ps' : List (Nat × Nat)) (dirty' : Nat × Nat) (dev' : ASt Nat),
      r = { s with dirtyB := some db', dirty := dirty', dev := dev' } ∧
      DPart cfg.epb8 nr (fun x => D x ∨ x = c) (c + 1) db' dirty' ps' dev' ∧ ∃ new, db'.blocks = db.blocks ++ new ∧ Ext n max s.dev dev' new) := by
  have hlim := hd.lim
  unfold setDirty
  simp only [word_eq]
  by_cases hidx : c / 64 = s.dirty.1
  · rw [if_pos hidx]
    refine ⟨db, ps, (s.dirty.1, s.dirty.2 ||| (1 <<< (c &&& 63)) % 2 ^ 64), s.dev, ?_, ⟨hd.part, hd.pos, hd.below, ?_, hd.lt, ?_⟩, [], (List.append_nil _).symm, Ext.refl hi⟩
    · rw [← hdb]
    · simp only; omega
    · intro x
      simp only
      by_cases hx : x / 64 = s.dirty.1
      · rw [if_pos hx, Nat.testBit_or, testBit_mask, Bool.or_eq_true]
        have := hd.bits x
        rw [if_pos hx] at this
        rw [this, decide_eq_true_eq]
        constructor
        · rintro (h | h)
          · exact Or.inl h
          · exact Or.inr (by omega)
        · rintro (h | h)
          · exact Or.inl h
          · exact Or.inr (by rw [h])
      · rw [if_neg hx]
        have := hd.bits x
        rw [if_neg hx] at this
        rw [this]
        constructor
        · exact Or.inl
        · rintro (h | h)
          · exact h
          · exact absurd (by rw [h]; exact hidx) hx
  · rw [if_neg hidx]
    have hgt : s.dirty.1 < c / 64 := by omega
    have := pushInto_post he hd.part hi s.dirty.2 (i := s.dirty.1) (by rw [Arr.lt_divUp (by omega)]; omega) hd.pos
    rw [hdb]
    cases e : pushInto s.dirty.1 s.dirty.2 (some db) s.dev with
    | error err => rw [e] at this; exact this.err
    | ok r =>
      rw [e] at this
      obtain ⟨ab, dev⟩ := r
      obtain ⟨h1, h2, new, hbk, h3⟩ := this
      simp only at h1 h2 h3 hbk
      refine ⟨ab, _, _, dev, rfl, ⟨h1, ?_, ?_, ?_, ?_, ?_⟩, new, hbk, h3⟩
      · simp only; omega
      · intro p hp
        simp only
        rcases List.mem_append.mp hp with hp | hp
        · have := hd.below p hp; omega
        · rw [List.mem_singleton.mp hp]; exact hgt
      · simp only; omega
      · simp only; omega
      · intro x
        simp only
        rw [Arr.arrayOf_append _ _ _ hd.below]
        have hb := hd.bits x
        by_cases hx : x / 64 = c / 64
        · rw [if_pos hx, testBit_mask, decide_eq_true_eq]
          rw [if_neg (by omega), Arr.arrayOf_out hd.below (by omega)] at hb
          have hnot : ¬ D x := by rw [← hb]; exact Bool.eq_false_iff.mp (Nat.zero_testBit _)
          constructor
          · intro h; exact Or.inr (by omega)
          · rintro (h | h)
            · exact absurd h hnot
            · rw [h]
        · rw [if_neg hx, hb]
          constructor
          · exact Or.inl
          · rintro (h | h)
            · exact h
            · exact absurd (by rw [h]) hx

theorem setDirty_ok {cfg : Cfg} {nr n max : Nat} (he : 0 < cfg.epb8) {s : RSt} {db : AB Nat} {D : Nat → Prop} {lim : Nat} {ps : List (Nat × Nat)}
    (hdb : s.dirtyB = some db) (hd : DPart cfg.epb8 nr D lim db s.dirty ps s.dev) (hi : s.dev.bt.sm.Inv n max) {c : Nat} {r : RSt}
    (hr : setDirty c s = .ok r) : r.mapB = s.mapB ∧ ∃ new, Ext n max s.dev r.dev new := by
  unfold setDirty at hr
  simp only at hr
  split at hr
  · cases hr; exact ⟨rfl, [], Ext.refl hi⟩
  · rw [hdb] at hr
    cases e : pushInto s.dirty.1 s.dirty.2 (some db) s.dev with
    | error err => rw [e] at hr; cases hr
    | ok q =>
      rw [e] at hr
      have hp := pushInto_ok he hd.part e
      have := pushInto_post he hd.part hi s.dirty.2 hp.1 hp.2
      rw [e] at this
      obtain ⟨ab, dev⟩ := q
      obtain ⟨h1, h2, new, -, h3⟩ := this
      simp only at hr h3
      cases hr
      exact ⟨rfl, new, h3⟩

theorem at_push {α : Type} {key : α → Nat} {l : List α} {p : Nat} (h : At key l p) (x : α) (hx : p ≤ key x) : At key (l ++ [x]) (key x + 1) := by
  refine ⟨fun y hy => ?_, Or.inr ⟨x, by simp, rfl⟩⟩
  rcases List.mem_append.mp hy with hy | hy
  · have := h.1 y hy; omega
  · rw [List.mem_singleton.mp hy]; omega

theorem at_le {α : Type} {key : α → Nat} {l : List α} {p c : Nat} (h : At key l p) (hc : ∀ x ∈ l, key x < c) : p ≤ c := by
  rcases h.2 with h | ⟨x, hx, h⟩
  · omega
  · have := hc x hx; omega

theorem dirtyIn_append (ms : List (Nat × Nat × Bool)) (c o : Nat) (x : Nat) :
    dirtyIn (ms ++ [(c, o, true)]) x ↔ dirtyIn ms x ∨ x = c := by
  unfold dirtyIn
  constructor
  · rintro ⟨m, hm, h1, h2⟩
    rcases List.mem_append.mp hm with hm | hm
    · exact Or.inl ⟨m, hm, h1, h2⟩
    · rw [List.mem_singleton.mp hm] at h1; exact Or.inr h1.symm
  · rintro (⟨m, hm, h1, h2⟩ | h)
    · exact ⟨m, by simp [hm], h1, h2⟩
    · exact ⟨_, List.mem_append.mpr (Or.inr (List.mem_singleton.mpr rfl)), h.symm, rfl⟩

theorem dirtyIn_append' (ms : List (Nat × Nat × Bool)) (c o : Nat) (x : Nat) :
    dirtyIn (ms ++ [(c, o, false)]) x ↔ dirtyIn ms x := by
  unfold dirtyIn
  constructor
  · rintro ⟨m, hm, h1, h2⟩
    rcases List.mem_append.mp hm with hm | hm
    · exact ⟨m, hm, h1, h2⟩
    · rw [List.mem_singleton.mp hm] at h2; cases h2
  · rintro ⟨m, hm, h1, h2⟩
    exact ⟨m, by simp [hm], h1, h2⟩

theorem pairwise_snoc {α : Type} {R : α → α → Prop} {l : List α} {x : α} (h : l.Pairwise R) (hx : ∀ y ∈ l, R y x) : (l ++ [x]).Pairwise R := by
  rw [List.pairwise_append]
  refine ⟨h, by simp, fun a ha b hb => ?_⟩
  rw [List.mem_singleton.mp hb]
  exact hx a ha

theorem DPart.weaken {epb nr : Nat} {D D' : Nat → Prop} {lim lim' : Nat} {db : AB Nat} {dirty : Nat × Nat} {ps : List (Nat × Nat)} {dev : ASt Nat}
    (h : DPart epb nr D lim db dirty ps dev) (hl : lim ≤ lim') (hD : ∀ x, D x ↔ D' x) : DPart epb nr D' lim' db dirty ps dev :=
  ⟨h.part, h.pos, h.below, Nat.le_trans h.lim hl, h.lt, fun c => (h.bits c).trans (hD c)⟩

/-- the state between `set_dirty` and the push of a mapping -/
theorem mark_post {cfg : Cfg} (hv : cfg.version = 1 ∨ cfg.version = 2) {n max : Nat} (he : 0 < cfg.epb8) {sb : SbIr} {ms : List (Nat × Nat × Bool)}
    {hs : List (Nat × Bytes)} {s : RSt} (h : Open cfg n max sb ms hs s) {ab : AB Nat} (hab : s.mapB = some ab)
    (hat : At (·.1) ms (posOf cfg.epb8 ab)) {c o : Nat} (d : Bool) (hc : c < sb.nrCacheBlocks) (hm : ∀ m ∈ ms, m.1 < c) :
    RPost (if d && cfg.version != 1 then setDirty c s else .ok s) (fun r => ∃ (db' : Option (AB Nat)) (dirty' : Nat × Nat) (dev' : ASt Nat),
      r = { s with dirtyB := db', dirty := dirty', dev := dev' } ∧ (cfg.version = 1 → db' = none) ∧
      (cfg.version = 2 → ∃ db ps, db' = some db ∧ DPart cfg.epb8 sb.nrCacheBlocks (dirtyIn (ms ++ [(c, o, d)])) (c + 1) db dirty' ps dev') ∧
      ∃ new, written db' = written s.dirtyB ++ new ∧ Ext n max s.dev dev' new) := by
  have hple := at_le hat hm
  obtain ⟨ab', hab', -, -, h4⟩ := h.maps
  rw [hab] at hab'; cases hab'
  rcases hv with hv | hv
  · have : (d && cfg.version != 1) = false := by rw [hv]; simp
    rw [this, if_neg (by simp)]
    exact ⟨s.dirtyB, s.dirty, s.dev, rfl, fun _ => (h.nodirty hv).1, fun h' => by omega, [], (List.append_nil _).symm, Ext.refl h.sm⟩
  · obtain ⟨db, ps, hdb, hd⟩ := h4 hv
    cases d with
    | false =>
      rw [Bool.false_and, if_neg (by simp)]
      refine ⟨s.dirtyB, s.dirty, s.dev, rfl, fun h' => by omega, fun _ => ⟨db, ps, hdb, ?_⟩, [], (List.append_nil _).symm, Ext.refl h.sm⟩
      exact hd.weaken (by omega) (fun x => (dirtyIn_append' ms c o x).symm)
    | true =>
      have : (true && cfg.version != 1) = true := by rw [hv]; rfl
      rw [this, if_pos rfl]
      refine (setDirty_post he hdb hd h.sm hc hple).mono ?_
      rintro r ⟨db', ps', dirty', dev', rfl, h1, new, hbk, h2⟩
      exact ⟨some db', dirty', dev', rfl, fun h' => by omega,
        fun _ => ⟨db', ps', rfl, h1.weaken (Nat.le_refl _) (fun x => (dirtyIn_append ms c o x).symm)⟩, new, by rw [hdb]; exact hbk, h2⟩

/-- a mapping of a block above the mappings before it -/
theorem mapping_post {cfg : Cfg} (hv : cfg.version = 1 ∨ cfg.version = 2) {n max : Nat} (he : 0 < cfg.epb8) {sb : SbIr} {ms : List (Nat × Nat × Bool)}
    {hs : List (Nat × Bytes)} {s : RSt} (h : Open cfg n max sb ms hs s) {c o : Nat} (d : Bool) (hc : c < sb.nrCacheBlocks) (hm : ∀ m ∈ ms, m.1 < c) :
    RPost (mapping cfg c o d s) (Open cfg n max sb (ms ++ [(c, o, d)]) hs) := by
  obtain ⟨ab, hab, h2, h3, -⟩ := h.maps
  have hmk := mark_post hv he h hab h3 (o := o) d hc hm
  unfold mapping
  simp only
  cases e : (if d && cfg.version != 1 then setDirty c s else .ok s) with
  | error err => rw [e] at hmk; exact hmk.err
  | ok s1 =>
    rw [e] at hmk
    obtain ⟨db', dirty', dev', rfl, k1, k2, new, kb, k3⟩ := hmk
    simp only [hab]
    have := pushInto_post he (h2.ext k3) k3.sm (mapWord ⟨o, if d && cfg.version == 1 then 3 else 1⟩) hc (at_le h3 hm)
    cases e2 : pushInto c (mapWord ⟨o, if d && cfg.version == 1 then 3 else 1⟩) (some ab) dev' with
    | error err => rw [e2] at this; exact this.err
    | ok r =>
      rw [e2] at this
      obtain ⟨ab2, dev2⟩ := r
      obtain ⟨p1, p2, new2, pb, p3⟩ := this
      simp only at p1 p2 p3 pb ⊢
      have hext := k3.trans p3
      refine ⟨h.hsb, h.sect, h.out, p3.sm, hext.cur h.cur, ⟨ab2, rfl, ?_, ?_, ?_⟩, ?_, ?_, h.discard, ?_, ?_, h.order.2.1, ?_, h.order.2.2.2⟩
      · rw [List.map_append]; exact p1
      · rw [p2]; exact at_push h3 (c, o, d) (at_le h3 hm)
      · intro hv2
        obtain ⟨db, ps, e1, e2⟩ := k2 hv2
        rw [p2]
        exact ⟨db, ps, e1, e2.ext p3⟩
      · intro hv1; exact ⟨k1 hv1, (h.nodirty hv1).2⟩
      · obtain ⟨hb, q1, q2, q3⟩ := h.hints
        exact ⟨hb, q1, q2.ext hext, q3⟩
      · obtain ⟨dr, Bw, a1, a2, a3, a4⟩ := h.acct
        refine ⟨dr, Bw, a1, a2.ext hext, fun b => ?_, hext.one a4⟩
        show dev2.bt.sm.abs b = _
        rw [hext.rc, a3, kb, hab]
        show _ = (0 :: (Bw ++ (ab2.blocks ++ _))).count b
        rw [pb]
        simp only [written, List.count_cons, List.count_append]
        omega
      · exact pairwise_snoc h.order.1 hm
      · intro m hm'
        rcases List.mem_append.mp hm' with hm' | hm'
        · exact h.order.2.2.1 m hm'
        · rw [List.mem_singleton.mp hm']; exact hc

/-- an accepted mapping is above the mappings before it -/
theorem mapping_ok {cfg : Cfg} (hv : cfg.version = 1 ∨ cfg.version = 2) {n max : Nat} (he : 0 < cfg.epb8) {sb : SbIr} {ms : List (Nat × Nat × Bool)}
    {hs : List (Nat × Bytes)} {s : RSt} (h : Open cfg n max sb ms hs s) {c o : Nat} {d : Bool} {r : RSt} (hr : mapping cfg c o d s = .ok r) :
    c < sb.nrCacheBlocks ∧ ∀ m ∈ ms, m.1 < c := by
  obtain ⟨ab, hab, h2, h3, h4⟩ := h.maps
  unfold mapping at hr
  simp only at hr
  cases e : (if d && cfg.version != 1 then setDirty c s else .ok s) with
  | error err => rw [e] at hr; cases hr
  | ok s1 =>
    rw [e] at hr
    have hs1 : s1.mapB = s.mapB ∧ ∃ new, Ext n max s.dev s1.dev new := by
      split at e
      · next hd =>
        have hv2 : cfg.version = 2 := by
          rcases hv with hv | hv
          · rw [hv] at hd; simp at hd
          · exact hv
        obtain ⟨db, ps, hdb, hdp⟩ := h4 hv2
        exact setDirty_ok he hdb hdp h.sm e
      · cases e; exact ⟨rfl, [], Ext.refl h.sm⟩
    obtain ⟨e1, new, hx⟩ := hs1
    simp only [e1, hab] at hr
    cases e2 : pushInto c (mapWord ⟨o, if d && cfg.version == 1 then 3 else 1⟩) (some ab) s1.dev with
    | error err => rw [e2] at hr; cases hr
    | ok q =>
      have := pushInto_ok he (h2.ext hx) e2
      exact ⟨this.1, fun m hm => by have := h3.1 m hm; simp only at this; omega⟩

theorem hint_post {cfg : Cfg} {n max : Nat} (he : 0 < cfg.epb4) {sb : SbIr} {ms : List (Nat × Nat × Bool)}
    {hs : List (Nat × Bytes)} {s : RSt} (h : Open cfg n max sb ms hs s) {c : Nat} {data : Bytes} (hc : c < sb.nrCacheBlocks)
    (hl : data.length = 4) (hm : ∀ m ∈ hs, m.1 < c) :
    RPost (hint c data s) (Open cfg n max sb ms (hs ++ [(c, data)])) := by
  obtain ⟨hb, hab, h2, h3, h4⟩ := h.hints
  unfold hint
  rw [if_neg (by simpa using hl), hab]
  have := pushInto_post he h2 h.sm (hintWord data) hc (at_le h3 hm)
  cases e2 : pushInto c (hintWord data) (some hb) s.dev with
  | error err => rw [e2] at this; exact this.err
  | ok r =>
    rw [e2] at this
    obtain ⟨ab2, dev2⟩ := r
    obtain ⟨p1, p2, new2, pb, p3⟩ := this
    simp only at p1 p2 p3 pb ⊢
    refine ⟨h.hsb, h.sect, h.out, p3.sm, p3.cur h.cur, ?_, h.nodirty, ⟨ab2, rfl, ?_, ?_, ?_⟩, h.discard, ?_, h.order.1, ?_, h.order.2.2.1, ?_⟩
    · obtain ⟨ab, q1, q2, q3, q4⟩ := h.maps
      refine ⟨ab, q1, q2.ext p3, q3, fun hv => ?_⟩
      obtain ⟨db, ps, e1, e2⟩ := q4 hv
      exact ⟨db, ps, e1, e2.ext p3⟩
    · rw [List.map_append]; exact p1
    · rw [p2]; exact at_push h3 (c, data) (at_le h3 hm)
    · intro x hx
      rcases List.mem_append.mp hx with hx | hx
      · exact h4 x hx
      · rw [List.mem_singleton.mp hx]; exact hl
    · obtain ⟨dr, Bw, a1, a2, a3, a4⟩ := h.acct
      refine ⟨dr, Bw, a1, a2.ext p3, fun b => ?_, p3.one a4⟩
      show dev2.bt.sm.abs b = _
      rw [p3.rc, a3, hab]
      show _ = (0 :: (Bw ++ (_ ++ (_ ++ ab2.blocks)))).count b
      rw [pb]
      simp only [written, List.count_cons, List.count_append]
      omega
    · exact pairwise_snoc h.order.2.1 hm
    · intro m hm'
      rcases List.mem_append.mp hm' with hm' | hm'
      · exact h.order.2.2.2 m hm'
      · rw [List.mem_singleton.mp hm']; exact hc

theorem hint_ok {cfg : Cfg} {n max : Nat} (he : 0 < cfg.epb4) {sb : SbIr} {ms : List (Nat × Nat × Bool)}
    {hs : List (Nat × Bytes)} {s : RSt} (h : Open cfg n max sb ms hs s) {c : Nat} {data : Bytes} {r : RSt} (hr : hint c data s = .ok r) :
    c < sb.nrCacheBlocks ∧ data.length = 4 ∧ ∀ m ∈ hs, m.1 < c := by
  obtain ⟨hb, hab, h2, h3, h4⟩ := h.hints
  unfold hint at hr
  split at hr
  · cases hr
  · next hl =>
    rw [hab] at hr
    cases e2 : pushInto c (hintWord data) (some hb) s.dev with
    | error err => rw [e2] at hr; cases hr
    | ok q =>
      have := pushInto_ok he h2 e2
      exact ⟨this.1, by simpa using hl, fun m hm => by have := h3.1 m hm; simp only at this; omega⟩

/-! ## Finishing -/

/-- where a restore left the arrays: `Bd`, `Bm`, `Bh`, `Bw` are the blocks of the dirty bitset, mappings, hints, discards; with the superblock
they were all that was in use (with one reference each) on the device `dev` that the space map was then written from -/
def Blocks (cfg : Cfg) (n : Nat) (out : Cache.Superblock) (sm : SmImage) (fin : ASt Nat) (am ad ah : Nat → Nat) : Prop :=
  ∃ (Bd Bm Bh Bw : List Nat) (dev : ASt Nat), InBlocks cfg.epb8 out.cache_blocks n am out.mapping_root fin Bm ∧
    (cfg.version = 2 → ∃ dr, out.dirty_root = some dr ∧ InBlocks cfg.epb8 (divUp out.cache_blocks 64) n ad dr fin Bd) ∧
    (cfg.version = 1 → Bd = []) ∧ InBlocks cfg.epb4 out.cache_blocks n ah out.hint_root fin Bh ∧
    InBlocks cfg.epb8 0 n (arrayOf []) out.discard_root fin Bw ∧ (∃ max, SMD.Cursor n max dev.bt) ∧
    (∀ b, dev.bt.sm.abs b = (0 :: (Bd ++ Bm ++ Bh ++ Bw)).count b) ∧ (∀ b, dev.bt.sm.abs b ≤ 1) ∧ cfg.writeSm dev = .ok (out.metadata_sm_root, sm, fin)

/-- what a completed restore leaves behind -/
structure Done (cfg : Cfg) (n : Nat) (sb : SbIr) (ms : List (Nat × Nat × Bool)) (hs : List (Nat × Bytes)) (clean : Bool) (s : RSt) : Prop where
  sect : s.sect = .finalized
  hsb : s.sb = none
  pos : cfg.version = 2 → 0 < sb.nrCacheBlocks
  mapB : s.mapB = none
  hintB : s.hintB = none
  order : (ms.Pairwise fun a b => a.1 < b.1) ∧ (hs.Pairwise fun a b => a.1 < b.1) ∧
    (∀ m ∈ ms, m.1 < sb.nrCacheBlocks) ∧ (∀ h ∈ hs, h.1 < sb.nrCacheBlocks) ∧ ∀ h ∈ hs, h.2.length = 4
  out : ∃ out ad, s.out = some out ∧
    OnDisk cfg.epb8 cfg.epb4 n out s.dev (arrayOf (ms.map (wordOf cfg.version))) ad (arrayOf (hs.map hwordOf)) ∧
    out.clean_shutdown = clean ∧ out.needs_check = false ∧ out.version = cfg.version ∧ out.policy_name = sb.policy ∧
    out.policy_hint_size = sb.hintWidth ∧ out.data_block_size = sb.blockSize ∧ out.cache_blocks = sb.nrCacheBlocks ∧
    (cfg.version = 1 → out.dirty_root = none) ∧
    (cfg.version = 2 → ∀ c, (ad (c / 64)).testBit (c % 64) = true ↔ dirtyIn ms c) ∧
    out.discard_block_size = 0 ∧ out.discard_nr_blocks = 0 ∧
    Blocks cfg n out s.sm s.dev (arrayOf (ms.map (wordOf cfg.version))) ad (arrayOf (hs.map hwordOf))

theorem completeOpt_post {cfg : Cfg} {epb nr n max : Nat} (he : 0 < epb) (hL : 2 ≤ cfg.capL) (hI : 4 ≤ cfg.capI) (hn : n < 2 ^ 64)
    {dev : ASt Nat} {ps : List (Nat × Nat)} {ab : AB Nat} (hp : Part epb nr ps ab dev) (hi : dev.bt.sm.Inv n max) (old : Option Nat) :
    RPost (completeOpt cfg (some ab) old dev) (fun r => ∃ root new, r.1 = some root ∧ Ext n max dev r.2 new ∧
      ∃ (h : Nat) (t : Tree Nat h) (blocks : List Nat), Stored epb nr n (arrayOf ps) root r.2 h t blocks ∧
      ∀ b, (t.blocks h ++ blocks).count b = (ab.blocks ++ new).count b) := by
  have := complete_part he hL hI hn hp hi
  unfold completeOpt
  simp only
  cases e : completeArray cfg.capL cfg.capI ab dev with
  | error err => rw [e] at this; cases err <;> exact this
  | ok r =>
    rw [e] at this
    obtain ⟨root, dev'⟩ := r
    obtain ⟨h, t, new, h1, h2⟩ := this
    refine ⟨root, _, rfl, h1, h, t, _, h2, fun b => ?_⟩
    simp only [List.count_append]
    omega

/-- closing the superblock element; a cache of version 2 must have a block -/
theorem finalize_post {cfg : Cfg} (hv : cfg.version = 1 ∨ cfg.version = 2) {n max : Nat} (he8 : 0 < cfg.epb8) (he4 : 0 < cfg.epb4)
    (hL : 2 ≤ cfg.capL) (hI : 4 ≤ cfg.capI) (hn : n < 2 ^ 64) (hsm : SmOk n max cfg)
    {sb : SbIr} {ms : List (Nat × Nat × Bool)} {hs : List (Nat × Bytes)} {s : RSt} (h : Open cfg n max sb ms hs s)
    (h0 : cfg.version = 2 → 0 < sb.nrCacheBlocks) :
    RPost (finalize cfg s) (Done cfg n sb ms hs s.clean) := by
  obtain ⟨ab, hab, h2, h3, h4⟩ := h.maps
  obtain ⟨hb, hhb, g2, g3, g4⟩ := h.hints
  obtain ⟨dr, hdr⟩ := h.discard
  unfold finalize
  simp only [h.hsb, hab, hhb]
  have hm := completeOpt_post he8 hL hI hn h2 h.sm s.mapRoot
  cases e1 : completeOpt cfg (some ab) s.mapRoot s.dev with
  | error err => rw [e1] at hm; exact hm.err
  | ok r1 =>
    rw [e1] at hm
    obtain ⟨mr, dev1⟩ := r1
    obtain ⟨mroot, new1, em, x1, s1⟩ := hm
    simp only at em x1 s1 ⊢
    have hd : RPost (completeDirty cfg { s with sb := some sb, mapB := some ab, hintB := some hb, dev := dev1 }) (fun r => ∃ new, Ext n max dev1 r.2 new ∧
        (cfg.version = 1 → r.1 = none ∧ new = []) ∧ (cfg.version = 2 → ∃ root ad, r.1 = some root ∧
        (∃ (h : Nat) (t : Tree Nat h) (blocks : List Nat), Stored cfg.epb8 (divUp sb.nrCacheBlocks 64) n ad root r.2 h t blocks ∧
          ∀ b, (t.blocks h ++ blocks).count b = (written s.dirtyB ++ new).count b) ∧
        ∀ c, (ad (c / 64)).testBit (c % 64) = true ↔ dirtyIn ms c)) := by
      rcases hv with hv | hv
      · obtain ⟨d1, d2⟩ := h.nodirty hv
        unfold completeDirty
        simp only [d1, d2]
        exact ⟨[], Ext.refl x1.sm, fun _ => ⟨rfl, rfl⟩, fun h => by omega⟩
      · obtain ⟨db, ps, e1, dp⟩ := h4 hv
        have hpos := h0 hv
        unfold completeDirty
        simp only [e1]
        have dp' := dp.ext x1
        have hlt := dp.lt
        have hp := push_part he8 dp'.part x1.sm s.dirty.2 (i := s.dirty.1) (by rw [Arr.lt_divUp (by omega)]; omega) dp.pos
        cases e2 : push s.dirty.1 s.dirty.2 db dev1 with
        | error err => rw [e2] at hp; cases err <;> exact hp
        | ok q =>
          rw [e2] at hp
          obtain ⟨ab2, dev2⟩ := q
          obtain ⟨p1, -, new2, pb, p3⟩ := hp
          simp only at p1 p3 pb ⊢
          refine (completeOpt_post he8 hL hI hn p1 p3.sm s.dirtyRoot).mono ?_
          rintro ⟨o, dev3⟩ ⟨root, new3, k1, k2, h3', t3, b3, k3, k4⟩
          refine ⟨_, p3.trans k2, fun h => by omega, fun _ => ⟨root, _, k1, ⟨h3', t3, b3, k3, fun b => ?_⟩, fun c => ?_⟩⟩
          · rw [k4, pb]; simp only [written, List.append_assoc]
          rw [Arr.arrayOf_append _ _ _ dp.below]
          exact dp.bits c
    cases e2 : completeDirty cfg { s with sb := some sb, mapB := some ab, hintB := some hb, dev := dev1 } with
    | error err => rw [e2] at hd; exact hd.err
    | ok r2 =>
      rw [e2] at hd
      obtain ⟨dr2, dev2⟩ := r2
      obtain ⟨new2, x2, d1, d2⟩ := hd
      simp only at x2 d1 d2 ⊢
      have hh := completeOpt_post he4 hL hI hn ((g2.ext x1).ext x2) x2.sm s.hintRoot
      cases e3 : completeOpt cfg (some hb) s.hintRoot dev2 with
      | error err => rw [e3] at hh; exact hh.err
      | ok r3 =>
        rw [e3] at hh
        obtain ⟨hr, dev3⟩ := r3
        obtain ⟨hroot, new3, eh, x3, s3⟩ := hh
        simp only at eh x3 s3 ⊢
        have hw := hsm dev3 (x3.cur (x2.cur (x1.cur h.cur)))
        cases e4 : cfg.writeSm dev3 with
        | error err => rw [e4] at hw; exact hw.err
        | ok r4 =>
          rw [e4] at hw
          obtain ⟨smr, img, dev4⟩ := r4
          obtain ⟨new4, x4⟩ := hw
          simp only at x4 ⊢
          rw [em, eh, hdr]
          simp only
          obtain ⟨ht1, t1, b1, st1, c1⟩ := s1
          obtain ⟨ht3, t3, b3, st3, c3⟩ := s3
          obtain ⟨dr', Bw, a1, a2, a3, a4⟩ := h.acct
          rw [hdr] at a1; cases a1
          have hcur := x3.cur (x2.cur (x1.cur h.cur))
          have hrc : ∀ b, dev3.bt.sm.abs b = (0 :: (Bw ++ ((t1.blocks ht1 ++ b1) ++ ((written s.dirtyB ++ new2) ++ (t3.blocks ht3 ++ b3))))).count b := by
            intro b
            have e1 := c1 b
            have e3 := c3 b
            rw [x3.rc, x2.rc, x1.rc, a3, hab, hhb]
            simp only [written, List.count_cons, List.count_append] at e1 e3 ⊢
            omega
          rcases hv with hv | hv
          · obtain ⟨en, hn2⟩ := d1 hv
            subst en
            refine ⟨rfl, rfl, h0, rfl, rfl, ⟨h.order.1, h.order.2.1, h.order.2.2.1, h.order.2.2.2, g4⟩, ?_⟩
            refine ⟨_, fun _ => 0, rfl, ⟨⟨ht1, t1, b1, ((st1.ext x2).ext x3).grown x4⟩, ⟨ht3, t3, b3, st3.grown x4⟩, fun h => ?_⟩, rfl, rfl, rfl, rfl, rfl, rfl, rfl, fun _ => rfl, fun h => by omega, rfl, rfl, ?_⟩
            · have : cfg.version = 2 := h
              omega
            · refine ⟨[], _, _, Bw, dev3, ⟨ht1, t1, b1, ((st1.ext x2).ext x3).grown x4, rfl⟩, fun h => by omega, fun _ => rfl,
                ⟨ht3, t3, b3, st3.grown x4, rfl⟩, ((((a2.ext x1).ext x2).ext x3).grown x4), ⟨max, hcur⟩, fun b => ?_, x3.one (x2.one (x1.one a4)), e4⟩
              rw [hrc, hn2, (h.nodirty hv).1]
              simp only [written, List.count_cons, List.count_append, List.count_nil]
              omega
          · obtain ⟨droot, ad, ed, ⟨ht2, t2, b2, st2, c2⟩, hbits⟩ := d2 hv
            subst ed
            refine ⟨rfl, rfl, h0, rfl, rfl, ⟨h.order.1, h.order.2.1, h.order.2.2.1, h.order.2.2.2, g4⟩, ?_⟩
            refine ⟨_, ad, rfl, ⟨⟨ht1, t1, b1, ((st1.ext x2).ext x3).grown x4⟩, ⟨ht3, t3, b3, st3.grown x4⟩, fun _ => ⟨droot, rfl, ht2, t2, b2, (st2.ext x3).grown x4⟩⟩, rfl, rfl, rfl, rfl, rfl, rfl, rfl, fun h => by omega, fun _ => hbits, rfl, rfl, ?_⟩
            refine ⟨_, _, _, Bw, dev3, ⟨ht1, t1, b1, ((st1.ext x2).ext x3).grown x4, rfl⟩, fun _ => ⟨droot, rfl, ht2, t2, b2, (st2.ext x3).grown x4, rfl⟩, fun h => by omega,
              ⟨ht3, t3, b3, st3.grown x4, rfl⟩, ((((a2.ext x1).ext x2).ext x3).grown x4), ⟨max, hcur⟩, fun b => ?_, x3.one (x2.one (x1.one a4)), e4⟩
            have e2 := c2 b
            rw [hrc]
            simp only [List.count_cons, List.count_append] at e2 ⊢
            omega

/-- a successful `finalize` in version 2 means that there is a block -/
theorem finalize_ok {cfg : Cfg} {n max : Nat} (he8 : 0 < cfg.epb8) (hL : 2 ≤ cfg.capL) (hI : 4 ≤ cfg.capI) (hn : n < 2 ^ 64)
    {sb : SbIr} {ms : List (Nat × Nat × Bool)} {hs : List (Nat × Bytes)} {s : RSt} (h : Open cfg n max sb ms hs s) {r : RSt}
    (hr : finalize cfg s = .ok r) (hv : cfg.version = 2) : 0 < sb.nrCacheBlocks := by
  obtain ⟨ab, hab, h2, h3, h4⟩ := h.maps
  obtain ⟨db, ps, e1, dp⟩ := h4 hv
  unfold finalize at hr
  simp only [h.hsb, hab] at hr
  have hm := completeOpt_post he8 hL hI hn h2 h.sm s.mapRoot
  cases e2 : completeOpt cfg (some ab) s.mapRoot s.dev with
  | error err => rw [e2] at hr; cases hr
  | ok r1 =>
    rw [e2] at hm hr
    obtain ⟨mr, dev1⟩ := r1
    obtain ⟨mroot, new1, em, x1, s1⟩ := hm
    simp only at x1 hr
    cases e3 : completeDirty cfg { s with sb := some sb, mapB := some ab, dev := dev1 } with
    | error err => rw [e3] at hr; cases hr
    | ok r2 =>
      unfold completeDirty at e3
      simp only [e1] at e3
      cases e4 : push s.dirty.1 s.dirty.2 db dev1 with
      | error err => rw [e4] at e3; cases e3
      | ok q =>
        have := push_part_pos he8 (dp.part.ext x1) s.dirty.2 e4
        have := (Arr.lt_divUp (by omega)).mp this.1
        omega

/-! ## Whole documents -/

/-- a device that nothing was allocated on -/
structure New (n max : Nat) (dev : ASt Nat) : Prop where
  sm : dev.bt.sm = SM.Core.new max n
  allocs : dev.bt.allocs = []
  max : 1 ≤ max

theorem New.cur {n max : Nat} {dev : ASt Nat} (h : New n max dev) : SMD.Cursor n max dev.bt := SMD.cursor_new h.max h.sm h.allocs

theorem New.zero {n max : Nat} {dev : ASt Nat} (h : New n max dev) (b : Nat) : dev.bt.sm.abs b = 0 := by
  rw [h.sm]
  simp only [SM.Core.abs, SM.Core.new, List.getD_eq_getElem?_getD, List.getElem?_replicate]
  split <;> rfl

/-- the stages of a restore -/
inductive Phase (cfg : Cfg) (n max : Nat) (clean : Bool) (sbs : List SbIr) (ms : List (Nat × Nat × Bool)) (hs : List (Nat × Bytes))
    (s : RSt) : Prop where
  | start (h : ∃ dev : ASt Nat, New n max dev ∧ s = { RSt.new dev clean with dirty := s.dirty } ∧ s.dirty = (0, 0)) (hm : ms = []) (hh : hs = []) (hb : sbs = [])
  | open (sb : SbIr) (h : Open cfg n max sb ms hs s) (hc : s.clean = clean) (hb : sbs = [sb])
  | done (sb : SbIr) (h : Done cfg n sb ms hs clean s) (hb : sbs = [sb])

theorem alloc_ext {n max : Nat} {s : ASt Nat} (hi : s.bt.sm.Inv n max) : Bld.Post (Bld.alloc s.bt) (fun r => Ext n max s { s with bt := r.2 } [r.1]) := by
  have := Bld.alloc_post hi
  cases e : Bld.alloc s.bt with
  | error err => rw [e] at this; exact this
  | ok r =>
    rw [e] at this
    obtain ⟨b, t⟩ := r
    obtain ⟨h1, h2, h3, h4, h5, h6⟩ := this
    refine ⟨h3, fun x => ?_, fun x hx => ⟨by show t.mem x = _; rw [h5], rfl⟩, fun x hx => ?_, fun hc => SMD.cursor_alloc hc e, by simp⟩
    · show t.sm.abs x = _
      rw [h4]
      simp only [SM.Counts.upd, List.count_singleton]
      by_cases hx : x = b
      · subst hx; rw [if_pos rfl, h2]; simp
      · rw [if_neg hx]
        have : (b == x) = false := by simpa using fun e => hx e.symm
        rw [this]; simp
    · rw [List.mem_singleton.mp hx]; exact h2

/-- opening the superblock element: the superblock's place must be the first free block -/
theorem superblockB_post {cfg : Cfg} (hv : cfg.version = 1 ∨ cfg.version = 2) {n max : Nat} (he8 : 0 < cfg.epb8)
    (hL : 2 ≤ cfg.capL) (hI : 4 ≤ cfg.capI) (hn : n < 2 ^ 64) {dev : ASt Nat} (hdev : New n max dev) (clean : Bool) (sb : SbIr) :
    superblockB cfg sb (RSt.new dev clean) = .error .occupied ∨
    RPost (superblockB cfg sb (RSt.new dev clean)) (fun r => Open cfg n max sb [] [] r ∧ r.sect = .superblock ∧ r.clean = clean) := by
  have hcu := hdev.cur
  have hi := hcu.1
  have hzero := hdev.zero
  unfold superblockB
  rw [if_neg (by simp [RSt.new])]
  have ha := alloc_ext hi
  show (match Bld.alloc dev.bt with | .error e => _ | .ok (b, bt) => _) = _ ∨ RPost (match Bld.alloc dev.bt with | .error e => _ | .ok (b, bt) => _) _
  cases e : Bld.alloc dev.bt with
  | error err => rw [e] at ha; exact Or.inr ha
  | ok r =>
    rw [e] at ha
    obtain ⟨b, bt⟩ := r
    have hx := ha
    simp only at hx ⊢
    by_cases hb : b = 0
    · right
      rw [if_neg (by simpa using hb)]
      have hc := complete_part he8 hL hI hn (part_new (epb := cfg.epb8) (nr := 0) (s := { dev with bt := bt })) hx.sm
      show RPost (match completeArray cfg.capL cfg.capI (AB.new cfg.epb8 0) { dev with bt := bt } with | .error e => _ | .ok (root, dev) => _) _
      cases e2 : completeArray cfg.capL cfg.capI (AB.new cfg.epb8 0) { dev with bt := bt } with
      | error err => rw [e2] at hc; cases err <;> exact hc
      | ok q =>
        rw [e2] at hc
        obtain ⟨root, dev2⟩ := q
        obtain ⟨hc, tc, new2, hx2, hst⟩ := hc
        simp only at hx2 hst ⊢
        refine ⟨⟨rfl, Or.inl rfl, rfl, hx2.sm, hx2.cur (hx.cur hcu), ⟨_, rfl, part_new, ⟨by simp, Or.inl (by simp [posOf, AB.new])⟩, fun h2 => ?_⟩, fun h1 => ?_,
          ⟨_, rfl, part_new, ⟨by simp, Or.inl (by simp [posOf, AB.new])⟩, by simp⟩, ⟨root, rfl⟩, ?_, by simp⟩, rfl, rfl⟩
        · refine ⟨_, [], by show (if cfg.version > 1 then _ else _) = _; rw [if_pos (by omega)], ⟨part_new, by simp [posOf, AB.new], by simp, by simp [RSt.new], Or.inl rfl, fun c => ?_⟩⟩
          have hz : (if c / 64 = (RSt.new dev clean).dirty.1 then (RSt.new dev clean).dirty.2 else arrayOf [] (c / 64)) = 0 := by
            split <;> rfl
          show (if c / 64 = (RSt.new dev clean).dirty.1 then (RSt.new dev clean).dirty.2 else arrayOf [] (c / 64)).testBit _ = true ↔ _
          rw [hz]
          simp [dirtyIn]
        · refine ⟨?_, rfl⟩
          show (if cfg.version > 1 then _ else _) = _
          rw [if_neg (by omega)]; rfl
        · refine ⟨root, tc.blocks hc ++ new2, rfl, ⟨hc, tc, new2, hst, rfl⟩, fun x => ?_, hx2.one (hx.one (fun b => by rw [hzero b]; omega))⟩
          show dev2.bt.sm.abs x = _
          rw [hx2.rc, hx.rc, hzero x, hb]
          have hw : written (if cfg.version > 1 then some (AB.new cfg.epb8 (divUp sb.nrCacheBlocks 64)) else none) = [] := by split <;> rfl
          show _ = (0 :: ((tc.blocks hc ++ new2) ++ (written _ ++ (written (if cfg.version > 1 then some (AB.new cfg.epb8 (divUp sb.nrCacheBlocks 64)) else none) ++ written _)))).count x
          rw [hw]
          simp only [written, AB.new, List.count_cons, List.count_append, List.count_nil]
          omega
    · left
      rw [if_pos (by simpa using hb)]

theorem Open.sect' {cfg : Cfg} {n max : Nat} {sb : SbIr} {ms : List (Nat × Nat × Bool)} {hs : List (Nat × Bytes)} {s : RSt}
    (h : Open cfg n max sb ms hs s) (x : Section) (hx : x = .superblock ∨ x = .mappings ∨ x = .hints) :
    Open cfg n max sb ms hs { s with sect := x } :=
  ⟨h.hsb, hx, h.out, h.sm, h.cur, h.maps, h.nodirty, h.hints, h.discard, h.acct, h.order⟩

theorem pushInto_none {i v : Nat} {dev : ASt Nat} : pushInto i v none dev = .error .panic := rfl

/-- one accepted call -/
theorem step_ok {cfg : Cfg} (hv : cfg.version = 1 ∨ cfg.version = 2) {n max : Nat} (he8 : 0 < cfg.epb8) (he4 : 0 < cfg.epb4)
    (hL : 2 ≤ cfg.capL) (hI : 4 ≤ cfg.capI) (hn : n < 2 ^ 64) (hsm : SmOk n max cfg) {clean : Bool}
    {sbs : List SbIr} {ms : List (Nat × Nat × Bool)} {hs : List (Nat × Bytes)} {s : RSt} (h : Phase cfg n max clean sbs ms hs s) {e : Ev} {r : RSt}
    (hr : step cfg s e = .ok r) : Phase cfg n max clean (sbs ++ sbsIn [e]) (ms ++ mapsIn [e]) (hs ++ hintsIn [e]) r := by
  have post : ∀ {α : Type} {x : Except RErr α} {Q : α → Prop} {a : α}, RPost x Q → x = .ok a → Q a := by
    intro α x Q a h e; rw [e] at h; exact h
  cases h with
  | start h hm hh hb =>
    obtain ⟨dev, hi, hs0, hd0⟩ := h
    have hs0 : s = RSt.new dev clean := by rw [hs0, hd0]; rfl
    subst hs0 hm hh hb
    cases e with
    | superblockB sb =>
      rcases superblockB_post hv he8 hL hI hn hi clean sb with ho | hp
      · rw [show step cfg (RSt.new dev clean) (.superblockB sb) = _ from ho] at hr; cases hr
      · have := post hp hr
        exact .open sb this.1 this.2.2 rfl
    | superblockE => cases hr
    | mappingsB => simp [step, RSt.new] at hr
    | mappingsE => simp [step, RSt.new] at hr
    | mapping c o d =>
      exfalso
      have hr : mapping cfg c o d (RSt.new dev clean) = .ok r := hr
      unfold mapping at hr
      simp only at hr
      cases e : (if d && cfg.version != 1 then setDirty c (RSt.new dev clean) else .ok (RSt.new dev clean)) with
      | error err => rw [e] at hr; cases hr
      | ok s1 =>
        rw [e] at hr
        have : s1.mapB = none := by
          split at e
          · unfold setDirty at e
            simp only at e
            split at e
            · cases e; rfl
            · rw [show (RSt.new dev clean).dirtyB = none from rfl, pushInto_none] at e
              cases e
          · cases e; rfl
        simp only [this, pushInto_none] at hr
        cases hr
    | hintsB => simp [step, RSt.new] at hr
    | hintsE => simp [step, RSt.new] at hr
    | hint c d =>
      exfalso
      have hr : hint c d (RSt.new dev clean) = .ok r := hr
      unfold hint at hr
      split at hr
      · cases hr
      · rw [show (RSt.new dev clean).hintB = none from rfl, pushInto_none] at hr
        cases hr
    | discardsB => cases hr; exact .start ⟨dev, hi, rfl, rfl⟩ rfl rfl rfl
    | discardsE => cases hr; exact .start ⟨dev, hi, rfl, rfl⟩ rfl rfl rfl
    | discard a b => cases hr; exact .start ⟨dev, hi, rfl, rfl⟩ rfl rfl rfl
    | eof => simp [step, RSt.new] at hr
  | «open» sb h hc hb =>
    have hsect : s.sect ≠ .none ∧ s.sect ≠ .finalized := by
      rcases h.sect with e | e | e <;> rw [e] <;> exact ⟨by decide, by decide⟩
    cases e with
    | superblockB sb' =>
      have hr : superblockB cfg sb' s = .ok r := hr
      unfold superblockB at hr
      rw [if_pos hsect.1] at hr
      cases hr
    | superblockE =>
      have h0 := fun hv2 => finalize_ok he8 hL hI hn h hr hv2
      have := post (finalize_post hv he8 he4 hL hI hn hsm h h0) hr
      rw [hc] at this
      simp only [mapsIn, hintsIn, sbsIn, List.append_nil]
      exact .done sb this hb
    | mappingsB =>
      simp only [mapsIn, hintsIn, sbsIn, List.append_nil]
      simp only [step] at hr
      split at hr
      · cases hr; exact .open sb (h.sect' _ (by simp)) hc hb
      · cases hr
    | mappingsE =>
      simp only [mapsIn, hintsIn, sbsIn, List.append_nil]
      simp only [step] at hr
      split at hr
      · cases hr; exact .open sb (h.sect' _ (by simp)) hc hb
      · cases hr
    | mapping c o d =>
      have hr : mapping cfg c o d s = .ok r := hr
      obtain ⟨g1, g2⟩ := mapping_ok hv he8 h hr
      have := post (mapping_post hv he8 h (o := o) d g1 g2) hr
      simp only [mapsIn, hintsIn, sbsIn, List.append_nil]
      refine .open sb this ?_ hb
      rw [← hc]
      unfold mapping at hr
      simp only at hr
      cases e : (if d && cfg.version != 1 then setDirty c s else .ok s) with
      | error err => rw [e] at hr; cases hr
      | ok s1 =>
        rw [e] at hr
        have h1 : s1.clean = s.clean := by
          split at e
          · unfold setDirty at e
            simp only at e
            split at e
            · cases e; rfl
            · cases e3 : pushInto s.dirty.1 s.dirty.2 s.dirtyB s.dev with
              | error err => rw [e3] at e; cases e
              | ok q => rw [e3] at e; cases e; rfl
          · cases e; rfl
        simp only at hr
        cases e3 : pushInto c (mapWord ⟨o, if d && cfg.version == 1 then 3 else 1⟩) s1.mapB s1.dev with
        | error err => rw [e3] at hr; cases hr
        | ok q => rw [e3] at hr; cases hr; exact h1
    | hintsB =>
      simp only [mapsIn, hintsIn, sbsIn, List.append_nil]
      simp only [step] at hr
      split at hr
      · cases hr; exact .open sb (h.sect' _ (by simp)) hc hb
      · cases hr
    | hintsE =>
      simp only [mapsIn, hintsIn, sbsIn, List.append_nil]
      simp only [step] at hr
      split at hr
      · cases hr; exact .open sb (h.sect' _ (by simp)) hc hb
      · cases hr
    | hint c d =>
      have hr : hint c d s = .ok r := hr
      obtain ⟨g1, g2, g3⟩ := hint_ok he4 h hr
      have := post (hint_post he4 h g1 g2 g3) hr
      simp only [mapsIn, hintsIn, sbsIn, List.append_nil]
      refine .open sb this ?_ hb
      rw [← hc]
      unfold hint at hr
      split at hr
      · cases hr
      · cases e3 : pushInto c (hintWord d) s.hintB s.dev with
        | error err => rw [e3] at hr; cases hr
        | ok q => rw [e3] at hr; cases hr; rfl
    | discardsB => cases hr; simp only [mapsIn, hintsIn, sbsIn, List.append_nil]; exact .open sb h hc hb
    | discardsE => cases hr; simp only [mapsIn, hintsIn, sbsIn, List.append_nil]; exact .open sb h hc hb
    | discard a b => cases hr; simp only [mapsIn, hintsIn, sbsIn, List.append_nil]; exact .open sb h hc hb
    | eof =>
      simp only [step] at hr
      simp only [hsect.2, if_false] at hr
      cases hr
  | done sb h hb =>
    have hsect := h.sect
    cases e with
    | superblockB sb' =>
      have hr : superblockB cfg sb' s = .ok r := hr
      unfold superblockB at hr
      rw [if_pos (by rw [hsect]; decide)] at hr
      cases hr
    | superblockE =>
      have hr : finalize cfg s = .ok r := hr
      unfold finalize at hr
      simp only [h.hsb] at hr
      cases hr
    | mappingsB => simp [step, hsect] at hr
    | mappingsE => simp [step, hsect] at hr
    | mapping c o d =>
      exfalso
      have hr : mapping cfg c o d s = .ok r := hr
      unfold mapping at hr
      simp only at hr
      cases e : (if d && cfg.version != 1 then setDirty c s else .ok s) with
      | error err => rw [e] at hr; cases hr
      | ok s1 =>
        rw [e] at hr
        have : s1.mapB = none := by
          split at e
          · unfold setDirty at e
            simp only at e
            split at e
            · cases e; exact h.mapB
            · cases e3 : pushInto s.dirty.1 s.dirty.2 s.dirtyB s.dev with
              | error err => rw [e3] at e; cases e
              | ok q => rw [e3] at e; cases e; exact h.mapB
          · cases e; exact h.mapB
        simp only [this, pushInto_none] at hr
        cases hr
    | hintsB => simp [step, hsect] at hr
    | hintsE => simp [step, hsect] at hr
    | hint c d =>
      exfalso
      have hr : hint c d s = .ok r := hr
      unfold hint at hr
      split at hr
      · cases hr
      · rw [h.hintB, pushInto_none] at hr
        cases hr
    | discardsB => cases hr; simp only [mapsIn, hintsIn, sbsIn, List.append_nil]; exact .done sb h hb
    | discardsE => cases hr; simp only [mapsIn, hintsIn, sbsIn, List.append_nil]; exact .done sb h hb
    | discard a b => cases hr; simp only [mapsIn, hintsIn, sbsIn, List.append_nil]; exact .done sb h hb
    | eof =>
      simp only [step] at hr
      simp only [hsect, if_true] at hr
      cases hr
      simp only [mapsIn, hintsIn, sbsIn, List.append_nil]
      exact .done sb h hb

theorem mapsIn_cons (e : Ev) (l : List Ev) : mapsIn (e :: l) = mapsIn [e] ++ mapsIn l := by cases e <;> rfl
theorem sbsIn_cons (e : Ev) (l : List Ev) : sbsIn (e :: l) = sbsIn [e] ++ sbsIn l := by cases e <;> rfl
theorem hintsIn_cons (e : Ev) (l : List Ev) : hintsIn (e :: l) = hintsIn [e] ++ hintsIn l := by cases e <;> rfl

theorem run_ok {cfg : Cfg} (hv : cfg.version = 1 ∨ cfg.version = 2) {n max : Nat} (he8 : 0 < cfg.epb8) (he4 : 0 < cfg.epb4)
    (hL : 2 ≤ cfg.capL) (hI : 4 ≤ cfg.capI) (hn : n < 2 ^ 64) (hsm : SmOk n max cfg) {clean : Bool} (evs : List Ev) :
    ∀ {sbs : List SbIr} {ms : List (Nat × Nat × Bool)} {hs : List (Nat × Bytes)} {s : RSt}, Phase cfg n max clean sbs ms hs s → ∀ {r : RSt},
    run cfg evs s = .ok r → Phase cfg n max clean (sbs ++ sbsIn evs) (ms ++ mapsIn evs) (hs ++ hintsIn evs) r := by
  induction evs with
  | nil => intro sbs ms hs s h r hr; cases hr; simpa [mapsIn, hintsIn, sbsIn] using h
  | cons e evs ih =>
    intro sbs ms hs s h r hr
    unfold run at hr
    cases e1 : step cfg s e with
    | error err => rw [e1] at hr; cases hr
    | ok s1 =>
      rw [e1] at hr
      have := ih (step_ok hv he8 he4 hL hI hn hsm h e1) hr
      rw [List.append_assoc, List.append_assoc, List.append_assoc, ← mapsIn_cons, ← hintsIn_cons, ← sbsIn_cons] at this
      exact this

end Verif.CacheM
