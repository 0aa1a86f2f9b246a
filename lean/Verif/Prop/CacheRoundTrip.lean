import Verif.Prop.CacheRestore

/-!
# C33: restoring a cache document and dumping the result

`restore_accepts` says which documents are accepted, `restored_dump` what a dump of the result prints, for every accepted
document.
-/

namespace Verif.CacheM

open Verif.BT (Tree)
open Verif.Arr (ASt AB arrayOf Ext completeArray)

/-! ## One cache block at a time -/

theorem word_roundtrip {o f : Nat} (ho : o < 2 ^ 48) (hf : f < 2 ^ 16) : ofWord (mapWord ⟨o, f⟩) = ⟨o, f⟩ := by
  obtain ⟨-, h2, h3⟩ := pack40_24 16 48 o f rfl ho hf
  unfold ofWord mapWord
  simp only [h2, h3]

theorem hint_roundtrip {d : Bytes} (h : d.length = 4) : hintBytes (hintWord d) = d := by
  unfold hintBytes hintWord
  rw [← h]
  exact leBytes_leVal d

/-- listing the indexes below `m` and printing what is found there, is printing a sorted list -/
theorem range_find {α : Type} {β : Type} (key : α → Nat) (g : α → List β) (m : Nat) : ∀ (k : Nat) (l : List α),
    l.Pairwise (fun a b => key a < key b) → (∀ x ∈ l, k ≤ key x ∧ key x < k + m) →
    ((List.range' k m).flatMap fun c => match l.find? (fun x => key x == c) with | some x => g x | none => []) = l.flatMap g := by
  induction m with
  | zero =>
    intro k l _ h
    cases l with
    | nil => rfl
    | cons x l => have := h x (by simp); omega
  | succ m ih =>
    intro k l hp h
    rw [List.range'_succ, List.flatMap_cons]
    cases l with
    | nil =>
      rw [ih (k + 1) [] (by simp) (by simp)]
      rfl
    | cons x l =>
      have hp' := List.pairwise_cons.mp hp
      have hx := h x (by simp)
      by_cases e : key x = k
      · have h1 : (x :: l).find? (fun y => key y == k) = some x := by rw [List.find?_cons_of_pos (by simpa using e)]
        rw [h1, List.flatMap_cons]
        simp only
        congr 1
        rw [← ih (k + 1) l hp'.2 (fun y hy => by have := hp'.1 y hy; have := h y (by simp [hy]); omega)]
        apply Bld.flatMap_congr'
        intro c hc
        have := List.mem_range'_1.mp hc
        rw [List.find?_cons_of_neg (by simp; omega)]
      · have h1 : (x :: l).find? (fun y => key y == k) = none := by
          rw [List.find?_eq_none]
          intro y hy
          rcases List.mem_cons.mp hy with rfl | hy
          · simpa using e
          · have := hp'.1 y hy; simp; omega
        rw [h1]
        simp only [List.nil_append]
        refine ih (k + 1) (x :: l) hp (fun y hy => ?_)
        have h2 := h y hy
        rcases List.mem_cons.mp hy with rfl | hy
        · omega
        · have := hp'.1 y hy; omega

theorem find_map {α β : Type} (f : α → Nat × β) (key : α → Nat) (hk : ∀ x, (f x).1 = key x) (l : List α) (c : Nat) :
    (l.map f).find? (fun p => p.1 == c) = (l.find? fun x => key x == c).map f := by
  induction l with
  | nil => rfl
  | cons x l ih =>
    rw [List.map_cons, List.find?_cons, List.find?_cons, hk x, ih]
    split <;> rfl

theorem arrayOf_map {α : Type} (f : α → Nat × Nat) (key : α → Nat) (hk : ∀ x, (f x).1 = key x) (l : List α) (c : Nat) :
    arrayOf (l.map f) c = match l.find? (fun x => key x == c) with | some x => (f x).2 | none => 0 := by
  unfold arrayOf
  rw [find_map f key hk]
  cases l.find? (fun x => key x == c) <;> rfl

theorem word_of_mapping {version : Nat} {m : Nat × Nat × Bool} (ho : m.2.1 < 2 ^ 48) :
    (ofWord (wordOf version m).2).isValid = true ∧ (ofWord (wordOf version m).2).oblock = m.2.1 ∧
    (version = 1 → (ofWord (wordOf version m).2).isDirty = m.2.2) := by
  unfold wordOf
  simp only
  rw [word_roundtrip ho (by split <;> omega)]
  refine ⟨?_, rfl, ?_⟩
  · unfold Mapping.isValid; simp only; split <;> decide
  · intro hv
    subst hv
    unfold Mapping.isDirty
    cases m.2.2 <;> simp only <;> decide

theorem word_zero : (ofWord 0).isValid = false := by decide

/-! ## What a dump of the restored metadata prints -/

theorem find_mem {α : Type} {p : α → Bool} {l : List α} {x : α} (h : l.find? p = some x) : x ∈ l := List.mem_of_find?_eq_some h

theorem mapEvs_of {version nr : Nat} {ms : List (Nat × Nat × Bool)} (hs : ms.Pairwise fun a b => a.1 < b.1)
    (hm : ∀ m ∈ ms, m.1 < nr) (ho : ∀ m ∈ ms, m.2.1 < 2 ^ 48) {dirty : Nat → Bool} (hd : ∀ m ∈ ms, dirty m.1 = m.2.2) :
    mapEvs nr (arrayOf (ms.map (wordOf version))) dirty = ms.map fun m => .mapping m.1 m.2.1 m.2.2 := by
  have := range_find (fun m : Nat × Nat × Bool => m.1) (fun m => [Ev.mapping m.1 m.2.1 m.2.2]) nr 0 ms hs (fun m h => by have := hm m h; omega)
  rw [List.map_eq_flatMap (f := fun m : Nat × Nat × Bool => Ev.mapping m.1 m.2.1 m.2.2), ← this, ← List.range_eq_range']
  unfold mapEvs
  apply Bld.flatMap_congr'
  intro c hc
  rw [arrayOf_map (wordOf version) (·.1) (fun _ => rfl)]
  cases e : ms.find? (fun x => x.1 == c) with
  | none => simp only [word_zero]; rfl
  | some m =>
    have hmem := find_mem e
    have hk : m.1 = c := by simpa using List.find?_some e
    obtain ⟨h1, h2, -⟩ := word_of_mapping (version := version) (ho m hmem)
    simp only [h1, h2, if_true]
    rw [← hk, hd m hmem]

theorem hintEvs_of {version nr : Nat} {ms : List (Nat × Nat × Bool)} {hs : List (Nat × Bytes)} (hp : ms.Pairwise fun a b => a.1 < b.1)
    (hm : ∀ m ∈ ms, m.1 < nr) (ho : ∀ m ∈ ms, m.2.1 < 2 ^ 48) (hl : ∀ h ∈ hs, h.2.length = 4) :
    hintEvs nr (arrayOf (ms.map (wordOf version))) (arrayOf (hs.map hwordOf)) = ms.map fun m => .hint m.1 (hintOf hs m.1) := by
  have := range_find (fun m : Nat × Nat × Bool => m.1) (fun m => [Ev.hint m.1 (hintOf hs m.1)]) nr 0 ms hp (fun m h => by have := hm m h; omega)
  rw [List.map_eq_flatMap (f := fun m : Nat × Nat × Bool => Ev.hint m.1 (hintOf hs m.1)), ← this, ← List.range_eq_range']
  unfold hintEvs
  apply Bld.flatMap_congr'
  intro c hc
  rw [arrayOf_map (wordOf version) (·.1) (fun _ => rfl)]
  cases e : ms.find? (fun x => x.1 == c) with
  | none => simp only [word_zero]; rfl
  | some m =>
    have hmem := find_mem e
    have hk : m.1 = c := by simpa using List.find?_some e
    obtain ⟨h1, h2, -⟩ := word_of_mapping (version := version) (ho m hmem)
    simp only [h1, if_true]
    rw [hk, arrayOf_map hwordOf (·.1) (fun _ => rfl)]
    unfold hintOf
    cases e2 : hs.find? (fun x => x.1 == c) with
    | none => rfl
    | some h => simp only [hwordOf]; rw [hint_roundtrip (hl h (find_mem e2))]

/-- the hints a dump prints: one for every mapping -/
def dumpHintsOf (ms : List (Nat × Nat × Bool)) (hs : List (Nat × Bytes)) : List (Nat × Bytes) := ms.map fun m => (m.1, hintOf hs m.1)

theorem find_self {ms : List (Nat × Nat × Bool)} (hp : ms.Pairwise fun a b => a.1 < b.1) {m : Nat × Nat × Bool} (hm : m ∈ ms) :
    ms.find? (fun x => x.1 == m.1) = some m := by
  have := Arr.arrayOf_pushed (ps := ms.map fun x => (x.1, x)) (p := (m.1, m)) ?_ (List.mem_map.mpr ⟨m, hm, rfl⟩)
  · unfold arrayOf at this
    rw [find_map (fun x : Nat × Nat × Bool => (x.1, x)) (fun x => x.1) (fun _ => rfl)] at this
    cases e : ms.find? (fun x => x.1 == m.1) with
    | none =>
      have := List.find?_eq_none.mp e m hm
      simp at this
    | some y => rw [e] at this; exact congrArg some this
  · exact List.pairwise_map.mpr (hp.imp fun h => h)

theorem done_dump {cfg : Cfg} (hv : cfg.version = 1 ∨ cfg.version = 2) {n : Nat} (he8 : 0 < cfg.epb8) (he4 : 0 < cfg.epb4)
    {sb : SbIr} {ms : List (Nat × Nat × Bool)} {hs : List (Nat × Bytes)} {clean : Bool} {s : RSt} (h : Done cfg n sb ms hs clean s)
    (h0 : 0 < sb.nrCacheBlocks) (h32 : sb.nrCacheBlocks < 2 ^ 32) (ho : ∀ m ∈ ms, m.2.1 < 2 ^ 48) (repair : Bool) :
    ∃ out, s.out = some out ∧ dump (devOf cfg.epb8 cfg.epb4 n s.dev) out repair = .ok (docOf { sb with uuid := [] } ms (dumpHintsOf ms hs)) := by
  obtain ⟨out, ad, h1, hod, -, -, o1, o2, o3, o4, o5, o6, o7, -⟩ := h.out
  refine ⟨out, h1, ?_⟩
  rw [dump_exact he8 he4 hod (by rw [o1]; exact hv) (by omega) (by omega) repair, o1, o2, o3, o4, o5]
  rw [mapEvs_of h.order.1 h.order.2.2.1 ho, hintEvs_of h.order.1 h.order.2.2.1 ho h.order.2.2.2.2]
  · unfold docOf dumpHintsOf
    rw [List.map_map]
    rfl
  · intro m hm
    unfold dirtyOf
    rcases hv with hv | hv
    · rw [if_pos hv, arrayOf_map (wordOf cfg.version) (·.1) (fun _ => rfl)]
      have hf := find_self h.order.1 hm
      rw [hf]
      exact (word_of_mapping (ho m hm)).2.2 hv
    · rw [if_neg (by omega), Bool.eq_iff_iff, o7 hv m.1]
      unfold dirtyIn
      constructor
      · rintro ⟨m', hm', e1, e2⟩
        have : m' = m := by
          obtain ⟨i, hi, rfl⟩ := List.mem_iff_getElem.mp hm'
          obtain ⟨j, hj, rfl⟩ := List.mem_iff_getElem.mp hm
          have hpw := List.pairwise_iff_getElem.mp h.order.1
          rcases Nat.lt_trichotomy i j with hij | hij | hij
          · have := hpw i j hi hj hij; omega
          · subst hij; rfl
          · have := hpw j i hj hi hij; omega
        rw [← this]; exact e2
      · intro hd; exact ⟨m, hm, rfl, hd⟩

/-! ## Any document -/

/-- an accepted document leaves the restorer in the state described by `Done` -/
theorem restored_done {cfg : Cfg} (hv : cfg.version = 1 ∨ cfg.version = 2) {n max : Nat} (he8 : 0 < cfg.epb8) (he4 : 0 < cfg.epb4)
    (hL : 2 ≤ cfg.capL) (hI : 4 ≤ cfg.capI) (hn : n < 2 ^ 64) (hsm : SmOk n max cfg) {clean : Bool} {body : List Ev} {dev : ASt Nat}
    (hi : New n max dev) {r : RSt} (hr : restore cfg clean (body ++ [.eof]) dev = .ok r) :
    ∃ sb : SbIr, sbsIn body = [sb] ∧ Done cfg n sb (mapsIn body) (hintsIn body) clean r := by
  have := run_ok hv he8 he4 hL hI hn hsm (clean := clean) (body ++ [Ev.eof]) (sbs := []) (ms := []) (hs := []) (s := RSt.new dev clean)
    (.start ⟨dev, hi, rfl, rfl⟩ rfl rfl rfl) (r := r) hr
  have e1 : ∀ l : List Ev, mapsIn (l ++ [.eof]) = mapsIn l := by
    intro l
    induction l with
    | nil => rfl
    | cons e l ih => rw [List.cons_append, mapsIn_cons, ih, ← mapsIn_cons]
  have e2 : ∀ l : List Ev, hintsIn (l ++ [.eof]) = hintsIn l := by
    intro l
    induction l with
    | nil => rfl
    | cons e l ih => rw [List.cons_append, hintsIn_cons, ih, ← hintsIn_cons]
  have e3 : ∀ l : List Ev, sbsIn (l ++ [.eof]) = sbsIn l := by
    intro l
    induction l with
    | nil => rfl
    | cons e l ih => rw [List.cons_append, sbsIn_cons, ih, ← sbsIn_cons]
  rw [e1, e2, e3, List.nil_append, List.nil_append, List.nil_append] at this
  have hfin : r.sect = .finalized := by
    unfold restore at hr
    generalize RSt.new dev clean = s at hr
    clear this
    induction body generalizing s with
    | nil =>
      have hr : run cfg [.eof] s = .ok r := hr
      unfold run at hr
      simp only [step] at hr
      by_cases hf : s.sect = .finalized
      · rw [if_pos hf] at hr; cases hr; exact hf
      · rw [if_neg hf] at hr; cases hr
    | cons e l ih =>
      rw [List.cons_append] at hr
      unfold run at hr
      cases e1 : step cfg s e with
      | error err => rw [e1] at hr; cases hr
      | ok s1 => rw [e1] at hr; exact ih s1 hr
  cases this with
  | start h _ _ _ => obtain ⟨d, -, h, -⟩ := h; rw [h] at hfin; cases hfin
  | «open» sb h _ _ => rcases h.sect with h | h | h <;> rw [h] at hfin <;> cases hfin
  | done sb h hb => exact ⟨sb, hb, h⟩

/-- C33: every document that `cache_restore` accepts (whatever the order and nesting of its elements, in either metadata version)
has increasing mappings and hints within the cache and four-byte hints, and `cache_dump` of the result prints exactly its
mappings with their dirty flags, and for every mapping the hint of the document, or zeroes if there is none.  The
superblock's numbers and the policy survive; the uuid does not. -/
theorem restored_dump {cfg : Cfg} (hv : cfg.version = 1 ∨ cfg.version = 2) {n max : Nat} (he8 : 0 < cfg.epb8) (he4 : 0 < cfg.epb4)
    (hL : 2 ≤ cfg.capL) (hI : 4 ≤ cfg.capI) (hn : n < 2 ^ 64) (hsm : SmOk n max cfg) {clean : Bool} {body : List Ev} {dev : ASt Nat}
    (hi : New n max dev) {r : RSt} (hr : restore cfg clean (body ++ [.eof]) dev = .ok r) :
    ∃ (sb : SbIr) (out : Cache.Superblock), sbsIn body = [sb] ∧ r.out = some out ∧ out.clean_shutdown = clean ∧ out.needs_check = false ∧
      out.version = cfg.version ∧ out.cache_blocks = sb.nrCacheBlocks ∧
      ((mapsIn body).Pairwise fun a b => a.1 < b.1) ∧ ((hintsIn body).Pairwise fun a b => a.1 < b.1) ∧
      (∀ m ∈ mapsIn body, m.1 < sb.nrCacheBlocks) ∧ (∀ h ∈ hintsIn body, h.1 < sb.nrCacheBlocks ∧ h.2.length = 4) ∧
      (0 < sb.nrCacheBlocks → sb.nrCacheBlocks < 2 ^ 32 → (∀ m ∈ mapsIn body, m.2.1 < 2 ^ 48) → ∀ repair,
        dump (devOf cfg.epb8 cfg.epb4 n r.dev) out repair =
          .ok (docOf { sb with uuid := [] } (mapsIn body) (dumpHintsOf (mapsIn body) (hintsIn body)))) ∧
      (sb.nrCacheBlocks = 0 → cfg.version = 1 ∧ ∀ repair, dump (devOf cfg.epb8 cfg.epb4 n r.dev) out repair = .error .panic) := by
  obtain ⟨sb, hb, h⟩ := restored_done hv he8 he4 hL hI hn hsm hi hr
  obtain ⟨out, ad, h1, hod, k1, k2, o1, o2, o3, o4, o5, o6, o7, -⟩ := h.out
  refine ⟨sb, out, hb, h1, k1, k2, o1, o5, h.order.1, h.order.2.1, h.order.2.2.1, fun x hx => ⟨h.order.2.2.2.1 x hx, h.order.2.2.2.2 x hx⟩, ?_, ?_⟩
  · intro h0 h32 ho repair
    obtain ⟨out', g1, g2⟩ := done_dump hv he8 he4 h h0 h32 ho repair
    rw [h1] at g1; cases g1; exact g2
  · intro h0
    have hv1 : cfg.version = 1 := by
      rcases hv with hv | hv
      · exact hv
      · have := h.pos hv; omega
    exact ⟨hv1, fun repair => dump_empty_panics he8 hod (Or.inl (by rw [o1]; exact hv1)) (by omega) repair⟩

/-! ## Documents in the form of a dump are accepted -/

theorem run_append (cfg : Cfg) (a b : List Ev) : ∀ s, run cfg (a ++ b) s = match run cfg a s with | .error e => .error e | .ok s => run cfg b s := by
  induction a with
  | nil => intro s; rfl
  | cons e a ih =>
    intro s
    rw [List.cons_append, run, run]
    cases step cfg s e with
    | error err => rfl
    | ok s1 => exact ih s1

theorem RPost.step {cfg : Cfg} {e : Ev} {es : List Ev} {s : RSt} {Q Q' : RSt → Prop} (h : RPost (step cfg s e) Q)
    (hf : ∀ a, CacheM.step cfg s e = .ok a → Q a → RPost (run cfg es a) Q') : RPost (run cfg (e :: es) s) Q' := by
  rw [run]
  cases e1 : CacheM.step cfg s e with
  | ok a => rw [e1] at h; exact hf a e1 h
  | error err => rw [e1] at h; exact h.err

theorem RPost.app {cfg : Cfg} {a b : List Ev} {s : RSt} {Q Q' : RSt → Prop} (h : RPost (run cfg a s) Q)
    (hf : ∀ x, Q x → RPost (run cfg b x) Q') : RPost (run cfg (a ++ b) s) Q' := by
  rw [run_append]
  cases e1 : run cfg a s with
  | ok x => rw [e1] at h; exact hf x h
  | error err => rw [e1] at h; exact h.err

theorem mapping_keeps {cfg : Cfg} {c o : Nat} {d : Bool} {s r : RSt} (hr : mapping cfg c o d s = .ok r) : r.sect = s.sect ∧ r.clean = s.clean := by
  unfold mapping at hr
  simp only at hr
  cases e : (if d && cfg.version != 1 then setDirty c s else .ok s) with
  | error err => rw [e] at hr; cases hr
  | ok s1 =>
    rw [e] at hr
    have h1 : s1.sect = s.sect ∧ s1.clean = s.clean := by
      split at e
      · unfold setDirty at e
        simp only at e
        split at e
        · cases e; exact ⟨rfl, rfl⟩
        · cases e3 : pushInto s.dirty.1 s.dirty.2 s.dirtyB s.dev with
          | error err => rw [e3] at e; cases e
          | ok q => rw [e3] at e; cases e; exact ⟨rfl, rfl⟩
      · cases e; exact ⟨rfl, rfl⟩
    simp only at hr
    cases e3 : pushInto c (mapWord ⟨o, if d && cfg.version == 1 then 3 else 1⟩) s1.mapB s1.dev with
    | error err => rw [e3] at hr; cases hr
    | ok q => rw [e3] at hr; cases hr; exact h1

theorem hint_keeps {c : Nat} {d : Bytes} {s r : RSt} (hr : hint c d s = .ok r) : r.sect = s.sect ∧ r.clean = s.clean := by
  unfold hint at hr
  split at hr
  · cases hr
  · cases e3 : pushInto c (hintWord d) s.hintB s.dev with
    | error err => rw [e3] at hr; cases hr
    | ok q => rw [e3] at hr; cases hr; exact ⟨rfl, rfl⟩

theorem run_maps {cfg : Cfg} (hv : cfg.version = 1 ∨ cfg.version = 2) {n max : Nat} (he : 0 < cfg.epb8) {sb : SbIr} {hs : List (Nat × Bytes)}
    (ms : List (Nat × Nat × Bool)) : ∀ (pre : List (Nat × Nat × Bool)) (s : RSt), Open cfg n max sb pre hs s →
    ((pre ++ ms).Pairwise fun a b => a.1 < b.1) → (∀ m ∈ ms, m.1 < sb.nrCacheBlocks) →
    RPost (run cfg (ms.map fun m => .mapping m.1 m.2.1 m.2.2) s) (fun r => Open cfg n max sb (pre ++ ms) hs r ∧ r.sect = s.sect ∧ r.clean = s.clean) := by
  induction ms with
  | nil => intro pre s h _ _; rw [List.append_nil]; exact ⟨h, rfl, rfl⟩
  | cons m ms ih =>
    intro pre s h hp hm
    obtain ⟨c, o, d⟩ := m
    have hbelow : ∀ x ∈ pre, x.1 < c := fun x hx => (List.pairwise_append.mp hp).2.2 x hx (c, o, d) (by simp)
    rw [List.map_cons]
    refine RPost.step (e := .mapping c o d) (mapping_post hv he h d (hm (c, o, d) (List.mem_cons_self ..)) hbelow) ?_
    intro s1 e1 h1
    obtain ⟨k1, k2⟩ := mapping_keeps e1
    refine (ih _ s1 h1 (by simpa using hp) (fun x hx => hm x (by simp [hx]))).mono ?_
    rintro r ⟨r1, r2, r3⟩
    exact ⟨by simpa using r1, by rw [r2, k1], by rw [r3, k2]⟩

theorem run_hints {cfg : Cfg} {n max : Nat} (he : 0 < cfg.epb4) {sb : SbIr} {ms : List (Nat × Nat × Bool)}
    (hs : List (Nat × Bytes)) : ∀ (pre : List (Nat × Bytes)) (s : RSt), Open cfg n max sb ms pre s →
    ((pre ++ hs).Pairwise fun a b => a.1 < b.1) → (∀ h ∈ hs, h.1 < sb.nrCacheBlocks ∧ h.2.length = 4) →
    RPost (run cfg (hs.map fun h => .hint h.1 h.2) s) (fun r => Open cfg n max sb ms (pre ++ hs) r ∧ r.sect = s.sect ∧ r.clean = s.clean) := by
  induction hs with
  | nil => intro pre s h _ _; rw [List.append_nil]; exact ⟨h, rfl, rfl⟩
  | cons m hs ih =>
    intro pre s h hp hm
    obtain ⟨c, d⟩ := m
    have hbelow : ∀ x ∈ pre, x.1 < c := fun x hx => (List.pairwise_append.mp hp).2.2 x hx (c, d) (by simp)
    have hc := hm _ (List.mem_cons_self ..)
    rw [List.map_cons]
    refine RPost.step (e := .hint c d) (hint_post he h hc.1 hc.2 hbelow) ?_
    intro s1 e1 h1
    obtain ⟨k1, k2⟩ := hint_keeps e1
    refine (ih _ s1 h1 (by simpa using hp) (fun x hx => hm x (by simp [hx]))).mono ?_
    rintro r ⟨r1, r2, r3⟩
    exact ⟨by simpa using r1, by rw [r2, k1], by rw [r3, k2]⟩

/-- the first block of a new device is the superblock's -/
theorem alloc_new {n max : Nat} {s r : Bld.St Nat} {b : Nat} (hs : s.sm = SM.Core.new max n) (h : Bld.alloc s = .ok (b, r)) : b = 0 := by
  unfold Bld.alloc at h
  rw [hs] at h
  cases n with
  | zero => simp [SM.Core.alloc, SM.Core.findFree, SM.Core.new, SM.Core.scan] at h
  | succ n =>
    have : (SM.Core.new max (n + 1)).alloc = (SM.Core.new max (n + 1)).take 0 := by
      unfold SM.Core.alloc SM.Core.findFree
      have : SM.Core.scan (SM.Core.new max (n + 1)) (SM.Core.new max (n + 1)).allocBegin
          ((SM.Core.new max (n + 1)).counts.length - (SM.Core.new max (n + 1)).allocBegin) = .block (some 0) := by
        rw [show (SM.Core.new max (n + 1)).counts.length - (SM.Core.new max (n + 1)).allocBegin = n + 1 by simp [SM.Core.new]]
        rfl
      rw [this]
    rw [this] at h
    unfold SM.Core.take at h
    simp only [Except.ok.injEq, Prod.mk.injEq] at h
    exact h.1.symm

/-- C33: a document in the form of a dump is accepted by `cache_restore` on a new device, unless there is no space for it. -/
theorem restore_accepts {cfg : Cfg} (hv : cfg.version = 1 ∨ cfg.version = 2) {n max : Nat} (he8 : 0 < cfg.epb8) (he4 : 0 < cfg.epb4)
    (hL : 2 ≤ cfg.capL) (hI : 4 ≤ cfg.capI) (hn : n < 2 ^ 64) (hsm : SmOk n max cfg) (clean : Bool) {sb : SbIr}
    {ms : List (Nat × Nat × Bool)} {hs : List (Nat × Bytes)} (hval : Valid sb.nrCacheBlocks ms hs) (h0 : 0 < sb.nrCacheBlocks)
    {dev : ASt Nat} (hnew : New n max dev) :
    RPost (restore cfg clean (docOf sb ms hs) dev) (Done cfg n sb ms hs clean) := by
  have hdev := hnew.sm
  have hsb : RPost (superblockB cfg sb (RSt.new dev clean)) (fun r => Open cfg n max sb [] [] r ∧ r.sect = .superblock ∧ r.clean = clean) := by
    rcases superblockB_post hv he8 hL hI hn hnew clean sb with h | h
    · exfalso
      unfold superblockB at h
      rw [if_neg (by simp [RSt.new])] at h
      rw [show (RSt.new dev clean).dev = dev from rfl] at h
      cases e : Bld.alloc dev.bt with
      | error err => rw [e] at h; cases h
      | ok q =>
        obtain ⟨b, bt⟩ := q
        rw [e] at h
        simp only at h
        rw [if_neg (by simpa using alloc_new hdev e)] at h
        cases e2 : completeArray cfg.capL cfg.capI (AB.new cfg.epb8 0) { dev with bt := bt } with
        | error err => rw [e2] at h; cases h
        | ok q => rw [e2] at h; cases h
    · exact h
  unfold restore docOf
  simp only [List.append_assoc, List.cons_append, List.nil_append]
  refine RPost.step (e := .superblockB sb) hsb ?_
  rintro s1 - ⟨o1, c1, l1⟩
  have e1 : step cfg s1 .mappingsB = .ok { s1 with sect := .mappings } := by simp [step, c1]
  rw [run, e1]
  simp only
  refine RPost.app (run_maps hv he8 ms [] _ (o1.sect' _ (by simp)) (by simpa using hval.mapsSorted) (fun m hm => (hval.maps m hm).1)) ?_
  rintro s2 ⟨o2, c2, l2⟩
  rw [List.nil_append] at o2
  have e2 : step cfg s2 .mappingsE = .ok { s2 with sect := .superblock } := by simp [step, c2]
  rw [run, e2]
  simp only
  have e3 : step cfg { s2 with sect := .superblock } .hintsB = .ok { s2 with sect := .hints } := by simp [step]
  rw [run, e3]
  simp only
  refine RPost.app (run_hints he4 hs [] _ (o2.sect' _ (by simp)) (by simpa using hval.hintsSorted) hval.hints) ?_
  rintro s3 ⟨o3, c3, l3⟩
  rw [List.nil_append] at o3
  have e4 : step cfg s3 .hintsE = .ok { s3 with sect := .superblock } := by simp [step, c3]
  rw [run, e4]
  simp only
  refine RPost.step (e := .superblockE) (finalize_post hv he8 he4 hL hI hn hsm (o3.sect' .superblock (by simp)) (fun _ => h0)) ?_
  intro s4 _ d4
  rw [show ({ s3 with sect := Section.superblock } : RSt).clean = clean by rw [← l1, ← l2.trans rfl, ← l3]] at d4
  rw [run, show step cfg s4 .eof = .ok s4 by simp [step, d4.sect]]
  exact d4

theorem dumpHintsOf_self {ms : List (Nat × Nat × Bool)} {hs : List (Nat × Bytes)} (h : hs.map (·.1) = ms.map (·.1))
    (hp : hs.Pairwise fun a b => a.1 < b.1) : dumpHintsOf ms hs = hs := by
  have h1 : ∀ x ∈ hs, hintOf hs x.1 = x.2 := by
    intro x hx
    unfold hintOf
    cases e : hs.find? (fun y => y.1 == x.1) with
    | none => have := List.find?_eq_none.mp e x hx; simp at this
    | some y =>
      have hy := find_mem e
      have hk : y.1 = x.1 := by simpa using List.find?_some e
      have : y = x := by
        obtain ⟨i, hi, rfl⟩ := List.mem_iff_getElem.mp hx
        obtain ⟨j, hj, rfl⟩ := List.mem_iff_getElem.mp hy
        have hpw := List.pairwise_iff_getElem.mp hp
        rcases Nat.lt_trichotomy i j with hij | hij | hij
        · have := hpw i j hi hj hij; omega
        · subst hij; rfl
        · have := hpw j i hj hi hij; omega
      rw [this]
  have h2 : dumpHintsOf ms hs = (ms.map (·.1)).map fun c => (c, hintOf hs c) := by unfold dumpHintsOf; rw [List.map_map]; rfl
  rw [h2, ← h, List.map_map]
  conv => rhs; rw [← List.map_id hs]
  apply List.map_congr_left
  intro x hx
  simp only [Function.comp, h1 x hx, id]

/-- C33: restoring a dump and dumping it again gives the same document: the same superblock values (without the uuid, which no
dump contains), mappings, dirty flags and hints, in both metadata versions, for every cache size and every pattern of mapped
and dirty blocks.  The restore may fail only for lack of metadata space. -/
theorem roundtrip {cfg : Cfg} (hv : cfg.version = 1 ∨ cfg.version = 2) {n max : Nat} (he8 : 0 < cfg.epb8) (he4 : 0 < cfg.epb4)
    (hL : 2 ≤ cfg.capL) (hI : 4 ≤ cfg.capI) (hn : n < 2 ^ 64) (hsm : SmOk n max cfg) (clean : Bool) {sb : SbIr}
    {ms : List (Nat × Nat × Bool)} {hs : List (Nat × Bytes)} (hval : Valid sb.nrCacheBlocks ms hs) (h0 : 0 < sb.nrCacheBlocks)
    (h32 : sb.nrCacheBlocks < 2 ^ 32) (hu : sb.uuid = []) (hh : hs.map (·.1) = ms.map (·.1))
    {dev : ASt Nat} (hdev : New n max dev) :
    RPost (restore cfg clean (docOf sb ms hs) dev) (fun r => ∃ out, r.out = some out ∧ out.clean_shutdown = clean ∧ ∀ repair,
      dump (devOf cfg.epb8 cfg.epb4 n r.dev) out repair = .ok (docOf sb ms hs)) := by
  refine (restore_accepts hv he8 he4 hL hI hn hsm clean hval h0 hdev).mono ?_
  intro r hd
  obtain ⟨out, ad, h1, -, k1, -⟩ := hd.out
  refine ⟨out, h1, k1, fun repair => ?_⟩
  obtain ⟨out', g1, g2⟩ := done_dump hv he8 he4 hd h0 h32 (fun m hm => (hval.maps m hm).2) repair
  rw [h1] at g1; cases g1
  rw [g2, dumpHintsOf_self hh hval.hintsSorted]
  congr 2
  cases sb
  simp only at hu
  rw [hu]

/-! ## Documents that do not survive -/

/-- C33 refuted for other documents: a hint of a block that is not mapped is lost, a mapping without a hint gets a zero hint. -/
theorem hint_without_mapping_refuted : dumpHintsOf [(0, 7, true)] [(1, [1, 2, 3, 4])] = [(0, [0, 0, 0, 0])] := rfl

/-- C33: a hint whose length is not four makes the restore panic. -/
theorem hint_length_panics (c : Nat) {d : Bytes} (h : d.length ≠ 4) (s : RSt) : hint c d s = .error .panic := by
  unfold hint; rw [if_pos h]

/-- a configuration with small blocks and nodes, whose space map needs no blocks -/
def demoCfg (version : Nat) : Cfg :=
  { epb8 := 3, epb4 := 3, capL := 4, capI := 4, version, writeSm := fun s => .ok ([], .empty, s) }

theorem demo_smOk (version n max : Nat) : SmOk n max (demoCfg version) := fun _ hi => ⟨[], (Ext.refl hi.1).grown⟩

def demoSb : SbIr := { uuid := [], blockSize := 128, nrCacheBlocks := 130, policy := [109, 113], hintWidth := 4 }
def demoMaps : List (Nat × Nat × Bool) := [(0, 9, true), (3, 2 ^ 47, false), (63, 4, true), (64, 5, true), (129, 6, false)]
def demoHints : List (Nat × Bytes) := [(0, [1, 2, 3, 4]), (3, [0, 0, 0, 9]), (63, [5, 5, 5, 5]), (64, [6, 6, 6, 6]), (129, [255, 255, 255, 255])]

/-- the hypotheses of `roundtrip` hold of a document with mappings around the word boundary, and the restore succeeds -/
example : Valid demoSb.nrCacheBlocks demoMaps demoHints ∧ demoHints.map (·.1) = demoMaps.map (·.1) ∧ 0 < demoSb.nrCacheBlocks :=
  ⟨⟨by decide, by decide, by decide, by decide⟩, rfl, by decide⟩

example : ((restore (demoCfg 2) true (docOf { demoSb with nrCacheBlocks := 5 } [(0, 9, true), (4, 7, false)] [(0, [1, 2, 3, 4]), (4, [4, 3, 2, 1])])
    { Arr.demoSt with bt := { Arr.demoSt.bt with sm := SM.Core.new 100 30 } }).toOption.bind (·.out)).isSome = true := by decide

end Verif.CacheM
