import Verif.Prop.Shrink

/-!
# C29: `thin_shrink`, the data and the new metadata
-/

namespace Verif.Shrink

open Verif.Dump (Run)
open Verif.Rst (Ev SbIR Val Sect Seg Env docEvents meaning Consistent runVals)
open Verif.Bld (Sorted)
open Verif.BT (Blk)

/-! ## Copying -/

/-- one copy of a data block -/
def copy1 {α : Type} (data : Nat → α) (op : Nat × Nat) : Nat → α := fun b => if b = op.2 then data op.1 else data b

theorem copies_frame {α : Type} : ∀ (ops : List (Nat × Nat)) (data : Nat → α) (b : Nat), (∀ o ∈ ops, o.2 ≠ b) → ops.foldl copy1 data b = data b := by
  intro ops
  induction ops with
  | nil => intro data b _; rfl
  | cons o ops ih =>
    intro data b h
    rw [List.foldl_cons, ih _ b (fun o ho => h o (by simp [ho]))]
    simp only [copy1]
    rw [if_neg (fun e => h o (by simp) e.symm)]

theorem copies_done {α : Type} : ∀ (ops : List (Nat × Nat)) (data : Nat → α), (ops.map (·.2)).Nodup → (∀ o ∈ ops, ∀ q ∈ ops, q.2 ≠ o.1) →
    ∀ o ∈ ops, ops.foldl copy1 data o.2 = data o.1 := by
  intro ops
  induction ops with
  | nil => intro _ _ _ o ho; cases ho
  | cons x ops ih =>
    intro data hn hd o ho
    rw [List.map_cons, List.nodup_cons] at hn
    rw [List.foldl_cons]
    rcases List.mem_cons.mp ho with rfl | ho
    · rw [copies_frame ops _ o.2 (fun q hq e => hn.1 (List.mem_map.mpr ⟨q, hq, e⟩))]
      simp [copy1]
    · rw [ih (copy1 data x) hn.2 (fun o ho q hq => hd o (by simp [ho]) q (by simp [hq])) o ho]
      simp only [copy1]
      rw [if_neg (fun e => hd o (by simp [ho]) x (by simp) e.symm)]

/-- C29, the data.  In whatever order the blocks are copied, and wherever the program is stopped, no block that the metadata refers to has changed; and when all
copies are done every used block's content is at its new place. -/
theorem shrink_data {N α : Type} (nr : Nat) (evs : List (Ev N)) (hl : ∀ m, Ev.map m ∈ evs → 1 ≤ m.len) (ops : List (Nat × Nat)) (evs' : List (Ev N))
    (h : shrinkEvents nr evs = some (ops, evs')) (data : Nat → α) (order : List (Nat × Nat)) (ho : order.Perm ops) :
    ∃ f, Moved nr (Used evs) f ∧ Remapped f evs evs' ∧ (∀ done, done <+: order → ∀ b, Used evs b → done.foldl copy1 data b = data b) ∧
      ∀ b, Used evs b → order.foldl copy1 data (f b) = data b := by
  have hp := shrink_plan nr evs hl
  rw [h] at hp
  obtain ⟨f, hf, p1, p2, p3, p4⟩ := hp
  have hfree : ∀ o ∈ order, ¬ Used evs o.2 ∧ Used evs o.1 := by
    intro o hm
    obtain ⟨h1, h2, h3⟩ := (p1 o.1 o.2).mp (ho.mem_iff.mp hm)
    rw [h3]
    exact ⟨hf.fresh _ h1 h2, h1⟩
  have hframe : ∀ done, done <+: order → ∀ b, Used evs b → done.foldl copy1 data b = data b := by
    intro done hd b hb
    refine copies_frame done data b ?_
    intro o hm e
    exact (hfree o (hd.subset hm)).1 (e ▸ hb)
  refine ⟨f, hf, p4, hframe, ?_⟩
  intro b hb
  by_cases hlt : b < nr
  · rw [hf.keep b hb hlt]
    exact hframe order (List.prefix_refl _) b hb
  · have hm : (b, f b) ∈ order := ho.mem_iff.mpr ((p1 b (f b)).mpr ⟨hb, by omega, rfl⟩)
    refine copies_done order data ((ho.map _).nodup_iff.mpr p3) ?_ (b, f b) hm
    intro o h1 q h2 e
    exact (hfree q h2).1 (e ▸ (hfree o h1).2)

/-! ## Documents -/

/-- a mapping that follows its block -/
def follow (f : Nat → Nat) : Nat × Val → Nat × Val
  | (k, .bt b t) => (k, .bt (f b) t)
  | e => e

theorem follow_key (f : Nat → Nat) (e : Nat × Val) : (follow f e).1 = e.1 := by
  obtain ⟨k, v⟩ := e
  cases v <;> rfl

theorem sorted_follow (f : Nat → Nat) {es : List (Nat × Val)} (h : Sorted es) : Sorted (es.map (follow f)) := by
  unfold Sorted
  rw [List.pairwise_map]
  exact h.imp (fun {a b} hab => by rw [follow_key, follow_key]; exact hab)

theorem vals_of_entries {f : Nat → Nat} {runs runs' : List Run} (h : runs'.flatMap Run.entries = (runs.flatMap Run.entries).map (fun e => { e with data := f e.data })) :
    runs'.flatMap runVals = (runs.flatMap runVals).map (follow f) := by
  have e : ∀ l : List Run, l.flatMap runVals = (l.flatMap Run.entries).map fun e => (e.thin, Val.bt e.data e.time) := by
    intro l; rw [List.map_flatMap]; rfl
  rw [e, e, h, List.map_map, List.map_map]
  rfl

theorem remapped_append {N : Type} {f : Nat → Nat} : ∀ {a b out : List (Ev N)}, Remapped f (a ++ b) out → ∃ a' b', out = a' ++ b' ∧ Remapped f a a' ∧ Remapped f b b' := by
  intro a
  induction a with
  | nil => intro b out h; exact ⟨[], out, rfl, .nil, h⟩
  | cons x a ih =>
    intro b out h
    rw [List.cons_append] at h
    cases h with
    | other _ _ l' he hr =>
      obtain ⟨a', b', e, h1, h2⟩ := ih hr
      exact ⟨x :: a', b', by rw [e]; rfl, .other _ _ _ he h1, h2⟩
    | map m ms _ l' h1 h2 hr =>
      obtain ⟨a', b', e, g1, g2⟩ := ih hr
      exact ⟨ms.map .map ++ a', b', by rw [e, List.append_assoc], .map _ _ _ _ h1 h2 g1, g2⟩

theorem remapped_one {N : Type} {f : Nat → Nat} {e : Ev N} (he : ∀ m, e ≠ .map m) {l out : List (Ev N)} (h : Remapped f (e :: l) out) :
    ∃ l', out = e :: l' ∧ Remapped f l l' := by
  cases h with
  | other _ _ l' _ hr => exact ⟨l', rfl, hr⟩
  | map m ms _ l' h1 h2 hr => exact absurd rfl (he m)

theorem remapped_nil {N : Type} {f : Nat → Nat} {out : List (Ev N)} (h : Remapped f [] out) : out = [] := by
  cases h; rfl

/-- two lists of segments that say the same, up to the new places -/
def SegsRel {N : Type} [DecidableEq N] (f : Nat → Nat) (segs segs' : List (Seg N)) : Prop :=
  (∀ env env' : Env N, (∀ n, env' n = (env n).map fun es => es.map (follow f)) → segs'.flatMap (Seg.vals env') = (segs.flatMap (Seg.vals env)).map (follow f)) ∧
    (∀ n, Seg.ref n ∈ segs' → Seg.ref n ∈ segs) ∧ (∀ n, segs = [.ref n] → segs' = [.ref n])

theorem remapped_segs {N : Type} [DecidableEq N] {f : Nat → Nat} : ∀ (segs : List (Seg N)) (out : List (Ev N)), Remapped f (segs.map Seg.ev) out →
    ∃ segs', out = segs'.map Seg.ev ∧ SegsRel f segs segs' := by
  intro segs
  induction segs with
  | nil =>
    intro out h
    rw [remapped_nil h]
    exact ⟨[], rfl, fun _ _ _ => rfl, (fun _ h => h), (fun _ h => by cases h)⟩
  | cons g segs ih =>
    intro out h
    rw [List.map_cons] at h
    cases g with
    | run r =>
      simp only [Seg.ev] at h
      cases h with
      | other _ _ l' he _ => exact absurd rfl (he r)
      | map m ms _ l' h1 h2 hr =>
        obtain ⟨segs', e, i1, i2, -⟩ := ih l' hr
        refine ⟨ms.map .run ++ segs', by rw [e, List.map_append, List.map_map]; rfl, ?_, ?_, (fun _ h => by cases h)⟩
        · intro env env' he
          rw [List.flatMap_append, List.flatMap_cons, List.map_append, i1 env env' he, List.flatMap_map]
          congr 1
          have := vals_of_entries (f := f) (runs := [r]) (runs' := ms) (by rw [h1]; simp)
          rw [List.flatMap_cons, List.flatMap_nil, List.append_nil] at this
          exact this
        · intro n hn
          rcases List.mem_append.mp hn with h | h
          · obtain ⟨q, _, h⟩ := List.mem_map.mp h; cases h
          · exact List.mem_cons_of_mem _ (i2 n h)
    | ref n =>
      obtain ⟨l', e1, hr⟩ := remapped_one (by intro m h; cases h) h
      obtain ⟨segs', e, i1, i2, i3⟩ := ih l' hr
      refine ⟨.ref n :: segs', by rw [e1, e]; rfl, ?_, ?_, ?_⟩
      · intro env env' he
        rw [List.flatMap_cons, List.flatMap_cons, List.map_append, i1 env env' he]
        congr 1
        simp only [Seg.vals, he]
        cases env n <;> rfl
      · intro k hk
        rcases List.mem_cons.mp hk with h | h
        · exact List.mem_cons.mpr (Or.inl h)
        · exact List.mem_cons_of_mem _ (i2 k h)
      · intro k hk
        rw [List.cons.injEq] at hk
        have hs : segs = [] := hk.2
        subst hs
        have := remapped_nil hr
        subst this
        cases segs' with
        | nil => rw [hk.1]
        | cons x y => cases e

theorem remapped_runs {N : Type} {f : Nat → Nat} : ∀ (runs : List Run) (out : List (Ev N)), Remapped f (runs.map .map) out →
    ∃ runs' : List Run, out = runs'.map .map ∧ runs'.flatMap Run.entries = (runs.flatMap Run.entries).map (fun e => { e with data := f e.data }) := by
  intro runs
  induction runs with
  | nil => intro out h; rw [remapped_nil h]; exact ⟨[], rfl, rfl⟩
  | cons r runs ih =>
    intro out h
    rw [List.map_cons] at h
    cases h with
    | other _ _ l' he _ => exact absurd rfl (he r)
    | map m ms _ l' h1 h2 hr =>
      obtain ⟨runs', e, i⟩ := ih l' hr
      refine ⟨ms ++ runs', by rw [e, List.map_append], ?_⟩
      rw [List.flatMap_append, h1, i, List.flatMap_cons, List.map_append]

theorem remapped_sects {N : Type} [DecidableEq N] {f : Nat → Nat} : ∀ (sects : List (Sect N)) (out : List (Ev N)) (env env' : Env N),
    (∀ n, env' n = (env n).map fun es => es.map (follow f)) → Remapped f (sects.flatMap Sect.events) out → Consistent env sects →
    ∃ sects', out = sects'.flatMap Sect.events ∧ Consistent env' sects' ∧
      meaning env' sects' = (meaning env sects).map fun p => (p.1, p.2.map (follow f)) := by
  intro sects
  induction sects with
  | nil => intro out env env' _ h _; rw [List.flatMap_nil] at h; rw [remapped_nil h]; exact ⟨[], rfl, trivial, rfl⟩
  | cons s sects ih =>
    intro out env env' he h hc
    rw [List.flatMap_cons] at h
    obtain ⟨a, b, rfl, h1, h2⟩ := remapped_append h
    cases s with
    | «def» n runs =>
      obtain ⟨hn, hs, hc⟩ := hc
      simp only [Sect.events] at h1
      obtain ⟨a1, rfl, h4⟩ := remapped_one (by intro m h; cases h) h1
      obtain ⟨a2, a3, rfl, h5, h6⟩ := remapped_append h4
      obtain ⟨a4, rfl, h7⟩ := remapped_one (by intro m h; cases h) h6
      have := remapped_nil h7
      subst this
      obtain ⟨runs', rfl, hr⟩ := remapped_runs runs a2 h5
      have hv := vals_of_entries hr
      obtain ⟨sects', e, i1, i2⟩ := ih b (env.add n (runs.flatMap runVals)) (env'.add n (runs'.flatMap runVals)) (by
        intro k
        simp only [Env.add]
        by_cases hk : k = n
        · rw [if_pos hk, if_pos hk, hv]; rfl
        · rw [if_neg hk, if_neg hk]; exact he k) h2 hc
      refine ⟨.def n runs' :: sects', by rw [e]; rfl, ⟨by rw [he, hn]; rfl, by rw [hv]; exact sorted_follow f hs, i1⟩, i2⟩
    | dev d segs =>
      obtain ⟨hr, hs, hc⟩ := hc
      simp only [Sect.events] at h1
      obtain ⟨a1, rfl, h4⟩ := remapped_one (by intro m h; cases h) h1
      obtain ⟨a2, a3, rfl, h5, h6⟩ := remapped_append h4
      obtain ⟨a4, rfl, h7⟩ := remapped_one (by intro m h; cases h) h6
      have := remapped_nil h7
      subst this
      obtain ⟨segs', rfl, g1, g2, g3⟩ := remapped_segs segs a2 h5
      obtain ⟨sects', e, i1, i2⟩ := ih b env env' he h2 hc
      refine ⟨.dev d segs' :: sects', by rw [e]; rfl, ⟨?_, by rw [g1 env env' he]; exact sorted_follow f hs, i1⟩, ?_⟩
      · intro n hn
        obtain ⟨es, e1, e2⟩ := hr n (g2 n hn)
        refine ⟨es.map (follow f), by rw [he, e1]; rfl, ?_⟩
        rcases e2 with e2 | e2
        · exact Or.inl (by simpa using e2)
        · exact Or.inr (g3 n e2)
      · simp only [meaning, List.map_cons]
        rw [g1 env env' he, i2]

/-- C29, the metadata.  If `thin_shrink` is given a consistent document without empty runs and accepts it, it writes a consistent document with the same superblock and
the same devices, whose mappings follow their blocks. -/
theorem shrink_document {N : Type} [DecidableEq N] (nr : Nat) (sb : SbIR) (sects : List (Sect N)) (hc : Consistent (fun _ => none) sects)
    (hl : ∀ m, Ev.map m ∈ docEvents sb sects → 1 ≤ m.len) (ops : List (Nat × Nat)) (evs' : List (Ev N))
    (h : shrinkEvents nr (docEvents sb sects) = some (ops, evs')) :
    ∃ f sects', Moved nr (Used (docEvents sb sects)) f ∧ (∀ a b, (a, b) ∈ ops ↔ Used (docEvents sb sects) a ∧ nr ≤ a ∧ b = f a) ∧ evs' = docEvents sb sects' ∧
      Consistent (fun _ => none) sects' ∧
      meaning (fun _ => none) sects' = (meaning (fun _ => none) sects).map fun p => (p.1, p.2.map (follow f)) := by
  have hp := shrink_plan nr (docEvents sb sects) hl
  rw [h] at hp
  obtain ⟨f, hf, p1, p2, p3, p4⟩ := hp
  unfold docEvents at p4
  obtain ⟨a, e1, h1⟩ := remapped_one (by intro m h; cases h) p4
  obtain ⟨b, c, rfl, h3, h2⟩ := remapped_append h1
  obtain ⟨d, rfl, h4⟩ := remapped_one (by intro m h; cases h) h2
  obtain ⟨g, rfl, h5⟩ := remapped_one (by intro m h; cases h) h4
  have := remapped_nil h5
  subst this
  obtain ⟨sects', rfl, i1, i2⟩ := remapped_sects sects b (fun _ => none) (fun _ => none) (fun _ => rfl) h3 hc
  exact ⟨f, sects', hf, p1, e1, i1, i2⟩

/-! ## From metadata to metadata -/

theorem dumpDevice_nonempty (ls : List (List Dump.Entry)) : ∀ r ∈ Dump.dumpDevice ls, 1 ≤ r.len := by
  have h := (Dump.dump_runs_exact ls).2
  generalize Dump.dumpDevice ls = l at h
  induction l with
  | nil => intro r hr; cases hr
  | cons a l ih =>
    intro r hr
    cases l with
    | nil => rw [List.mem_singleton.mp hr]; exact h
    | cons b l =>
      rcases List.mem_cons.mp hr with rfl | hr
      · exact h.1
      · exact ih h.2.2 r hr

theorem flush_nonempty {mem : Nat → Option (Blk Val)} {buf : List Nat} {out : List (Ev Nat)} (h : TDump.flush mem buf = some out) :
    ∀ m, Ev.map m ∈ out → 1 ≤ m.len := by
  unfold TDump.flush at h
  by_cases c : buf = []
  · rw [if_pos c] at h; cases h; intro m hm; cases hm
  · rw [if_neg c] at h
    unfold TDump.emitLeaves at h
    cases hg : Gather.collect (TDump.readLeaf mem) buf with
    | none => rw [hg] at h; cases h
    | some ls =>
      rw [hg] at h
      simp only [Option.map_some, Option.some.injEq] at h
      subst h
      intro m hm
      obtain ⟨r, hr, e⟩ := List.mem_map.mp hm
      cases e
      exact dumpDevice_nonempty ls m hr

theorem emitEntries_nonempty {mem : Nat → Option (Blk Val)} : ∀ (es : List TDump.MEntry) (buf : List Nat) (out : List (Ev Nat)),
    TDump.emitEntries mem buf es = some out → ∀ m, Ev.map m ∈ out → 1 ≤ m.len := by
  intro es
  induction es with
  | nil => intro buf out h; exact flush_nonempty h
  | cons e es ih =>
    intro buf out h
    cases e with
    | leaf b => exact ih _ _ h
    | ref id =>
      simp only [TDump.emitEntries] at h
      cases h1 : TDump.flush mem buf with
      | none => rw [h1] at h; cases h
      | some a =>
        cases h2 : TDump.emitEntries mem [] es with
        | none => rw [h1, h2] at h; cases h
        | some r =>
          rw [h1, h2] at h
          simp only [Option.some.injEq] at h
          subst h
          intro m hm
          rcases List.mem_append.mp hm with hm | hm
          · exact flush_nonempty h1 m hm
          · rcases List.mem_cons.mp hm with hm | hm
            · cases hm
            · exact ih _ _ h2 m hm

theorem collect_mem {α β : Type} {f : α → Option β} : ∀ (l : List α) (out : List β), Gather.collect f l = some out → ∀ b ∈ out, ∃ a ∈ l, f a = some b := by
  intro l
  induction l with
  | nil => intro out h b hb; simp only [Gather.collect, Option.some.injEq] at h; subst h; cases hb
  | cons a l ih =>
    intro out h b hb
    simp only [Gather.collect] at h
    cases h1 : f a with
    | none => rw [h1] at h; cases h
    | some x =>
      cases h2 : Gather.collect f l with
      | none => rw [h1, h2] at h; cases h
      | some y =>
        rw [h1, h2] at h
        simp only [Option.some.injEq] at h
        subst h
        rcases List.mem_cons.mp hb with rfl | hb
        · exact ⟨a, by simp, h1⟩
        · obtain ⟨c, hc, e⟩ := ih y h2 b hb
          exact ⟨c, by simp [hc], e⟩

/-- a dump has no empty runs -/
theorem dump_nonempty {mem : Nat → Option (Blk Val)} {nr mr dr : Nat} {sb : SbIR} {sel : Option (List Nat)} {evs : List (Ev Nat)}
    (h : TDump.dump mem nr sb mr dr sel = some evs) : ∀ m, Ev.map m ∈ evs → 1 ≤ m.len := by
  unfold TDump.dump at h
  simp only [Option.bind_eq_bind, Option.bind_eq_some_iff] at h
  obtain ⟨devices, -, devs, -, md, -, h⟩ := h
  unfold TDump.dumpMetadata at h
  simp only [Option.bind_eq_bind, Option.bind_eq_some_iff, Option.some.injEq] at h
  obtain ⟨a, ha, b, hb, rfl⟩ := h
  intro m hm
  rcases List.mem_cons.mp hm with hm | hm
  · cases hm
  · rcases List.mem_append.mp hm with hm | hm
    · rcases List.mem_append.mp hm with hm | hm
      · obtain ⟨l, hl, hm⟩ := List.mem_flatten.mp hm
        obtain ⟨d, -, e⟩ := collect_mem _ _ ha l hl
        cases h1 : TDump.emitEntries mem [] d.2 with
        | none => rw [h1] at e; cases e
        | some es =>
          rw [h1] at e
          simp only [Option.map_some, Option.some.injEq] at e
          subst e
          rcases List.mem_cons.mp hm with hm | hm
          · cases hm
          · rcases List.mem_append.mp hm with hm | hm
            · exact emitEntries_nonempty _ _ _ h1 m hm
            · cases List.mem_singleton.mp hm
      · obtain ⟨l, hl, hm⟩ := List.mem_flatten.mp hm
        obtain ⟨d, -, e⟩ := collect_mem _ _ hb l hl
        cases h1 : TDump.emitEntries mem [] d.entries with
        | none => rw [h1] at e; cases e
        | some es =>
          rw [h1] at e
          simp only [Option.map_some, Option.some.injEq] at e
          subst e
          rcases List.mem_cons.mp hm with hm | hm
          · cases hm
          · rcases List.mem_append.mp hm with hm | hm
            · exact emitEntries_nonempty _ _ _ h1 m hm
            · cases List.mem_singleton.mp hm
    · rcases List.mem_cons.mp hm with hm | hm
      · cases hm
      · cases List.mem_singleton.mp hm

/-- the data block is mapped by a device -/
def MappedBy (devs : List Rst.DevT) (b : Nat) : Prop := ∃ d ∈ devs, ∃ k t, (k, Val.bt b t) ∈ d.t.contents d.h

theorem runVals_used (r : Run) (k b t : Nat) (h : (k, Val.bt b t) ∈ runVals r) : r.data ≤ b ∧ b < r.data + r.len := by
  unfold runVals Run.entries at h
  rw [List.map_map] at h
  obtain ⟨i, hi, e⟩ := List.mem_map.mp h
  have hi := List.mem_range.mp hi
  simp only [Function.comp, Prod.mk.injEq, Val.bt.injEq] at e
  omega

theorem used_runVals (r : Run) (b : Nat) (h : r.data ≤ b ∧ b < r.data + r.len) : ∃ k t, (k, Val.bt b t) ∈ runVals r := by
  refine ⟨r.thin + (b - r.data), r.time, ?_⟩
  unfold runVals Run.entries
  rw [List.map_map]
  refine List.mem_map.mpr ⟨b - r.data, List.mem_range.mpr (by omega), ?_⟩
  simp only [Function.comp, Prod.mk.injEq, Val.bt.injEq, true_and, and_true]
  omega

theorem used_append {N : Type} (a b : List (Ev N)) (x : Nat) : Used (a ++ b) x ↔ Used a x ∨ Used b x := by
  constructor
  · rintro ⟨m, hm, h⟩
    rcases List.mem_append.mp hm with hm | hm
    · exact Or.inl ⟨m, hm, h⟩
    · exact Or.inr ⟨m, hm, h⟩
  · rintro (⟨m, hm, h⟩ | ⟨m, hm, h⟩)
    · exact ⟨m, List.mem_append.mpr (Or.inl hm), h⟩
    · exact ⟨m, List.mem_append.mpr (Or.inr hm), h⟩

/-- what a document means uses only blocks of its runs -/
theorem meaning_used {N : Type} [DecidableEq N] : ∀ (sects : List (Sect N)) (env : Env N) (p : Rst.DevIR × List (Nat × Val)), p ∈ meaning env sects →
    ∀ k b t, (k, Val.bt b t) ∈ p.2 → Used (sects.flatMap Sect.events) b ∨ ∃ n es, env n = some es ∧ (k, Val.bt b t) ∈ es := by
  intro sects
  induction sects with
  | nil => intro env p hp; cases hp
  | cons s sects ih =>
    intro env p hp k b t he
    rw [List.flatMap_cons, used_append]
    cases s with
    | «def» n runs =>
      rcases ih _ p hp k b t he with h | ⟨m, es, h1, h2⟩
      · exact Or.inl (Or.inr h)
      · simp only [Env.add] at h1
        by_cases hm : m = n
        · rw [if_pos hm] at h1
          cases h1
          obtain ⟨r, hr, h2⟩ := List.mem_flatMap.mp h2
          exact Or.inl (Or.inl ⟨r, by simp [Sect.events, hr], runVals_used r k b t h2⟩)
        · rw [if_neg hm] at h1
          exact Or.inr ⟨m, es, h1, h2⟩
    | dev d segs =>
      rcases List.mem_cons.mp hp with rfl | hp
      · obtain ⟨g, hg, h2⟩ := List.mem_flatMap.mp he
        cases g with
        | run r =>
          refine Or.inl (Or.inl ⟨r, ?_, runVals_used r k b t h2⟩)
          exact List.mem_cons_of_mem _ (List.mem_append.mpr (Or.inl (List.mem_map.mpr ⟨_, hg, rfl⟩)))
        | ref n =>
          simp only [Seg.vals] at h2
          cases hn : env n with
          | none => rw [hn] at h2; cases h2
          | some es => rw [hn] at h2; exact Or.inr ⟨n, es, hn, h2⟩
      · rcases ih _ p hp k b t he with h | h
        · exact Or.inl (Or.inr h)
        · exact Or.inr h

/-- every run belongs to a definition or to a device -/
theorem used_meaning {N : Type} [DecidableEq N] : ∀ (sects : List (Sect N)) (env : Env N) (b : Nat), Used (sects.flatMap Sect.events) b →
    (∃ n runs, Sect.def n runs ∈ sects ∧ ∃ k t, (k, Val.bt b t) ∈ runs.flatMap runVals) ∨ ∃ p ∈ meaning env sects, ∃ k t, (k, Val.bt b t) ∈ p.2 := by
  intro sects
  induction sects with
  | nil => rintro env b ⟨m, hm, _⟩; cases hm
  | cons s sects ih =>
    intro env b hu
    rw [List.flatMap_cons, used_append] at hu
    cases s with
    | «def» n runs =>
      rcases hu with ⟨m, hm, h⟩ | hu
      · left
        rcases List.mem_cons.mp hm with hm | hm
        · cases hm
        · rcases List.mem_append.mp hm with hm | hm
          · obtain ⟨r, hr, e⟩ := List.mem_map.mp hm
            cases e
            obtain ⟨k, t, hk⟩ := used_runVals m b h
            exact ⟨n, runs, List.mem_cons_self, k, t, List.mem_flatMap.mpr ⟨m, hr, hk⟩⟩
          · cases List.mem_singleton.mp hm
      · rcases ih (env.add n (runs.flatMap runVals)) b hu with ⟨n', r', h1, h2⟩ | h
        · exact Or.inl ⟨n', r', List.mem_cons_of_mem _ h1, h2⟩
        · exact Or.inr h
    | dev d segs =>
      rcases hu with ⟨m, hm, h⟩ | hu
      · right
        rcases List.mem_cons.mp hm with hm | hm
        · cases hm
        · rcases List.mem_append.mp hm with hm | hm
          · obtain ⟨g, hg, e⟩ := List.mem_map.mp hm
            cases g with
            | ref n => cases e
            | run r =>
              cases e
              obtain ⟨k, t, hk⟩ := used_runVals m b h
              exact ⟨_, List.mem_cons_self, k, t, List.mem_flatMap.mpr ⟨_, hg, hk⟩⟩
          · cases List.mem_singleton.mp hm
      · rcases ih env b hu with ⟨n', r', h1, h2⟩ | ⟨p, hp, h⟩
        · exact Or.inl ⟨n', r', List.mem_cons_of_mem _ h1, h2⟩
        · exact Or.inr ⟨p, List.mem_cons_of_mem _ hp, h⟩

theorem used_doc {N : Type} (sb : SbIR) (sects : List (Sect N)) (b : Nat) : Used (docEvents sb sects) b ↔ Used (sects.flatMap Sect.events) b := by
  unfold docEvents
  rw [used_cons _ (by intro m h; cases h), used_append]
  constructor
  · rintro (h | ⟨m, hm, _⟩)
    · exact h
    · rcases List.mem_cons.mp hm with hm | hm
      · cases hm
      · cases List.mem_singleton.mp hm
  · exact Or.inl

/-- C29, binary metadata.  For metadata without damage (`Metadata`) whose devices are `devs`, shrinking the data device to `nr` blocks fails without having written
anything if the mapped blocks do not fit in any way; otherwise there are new places `f` for the mapped blocks, exactly the blocks beyond the new end are copied, and the
metadata that is written describes the same devices with every mapping following its block (unless the metadata device is too small, or a reference count is
exhausted).  The superblock's record of the size of the data device is the subject of `shrink_size_refuted`. -/
theorem shrink_metadata {mem : Nat → Option (Blk Val)} {nrMeta mr dr : Nat} {devs : List Rst.DevT} (h : TDump.Metadata mem nrMeta mr dr devs) (sb : SbIR)
    (hsz : Rst.SizeOK sb) (n max : Nat) (hmax : 1 ≤ max) (hn : n < 2 ^ 64) (mem' : Nat → Option (Blk Val)) (nr : Nat) :
    match rebuild mem nrMeta sb mr dr nr ⟨mem', SM.Core.new max n, [], []⟩ with
    | none => ¬ ∃ f, Moved nr (MappedBy devs) f
    | some (ops, r) => ∃ f, Moved nr (MappedBy devs) f ∧ (∀ a b, (a, b) ∈ ops ↔ MappedBy devs a ∧ nr ≤ a ∧ b = f a) ∧
        Rst.PostR r (Rst.Restored n max sb (devs.map fun d => (d.means.1, d.means.2.map (follow f)))) := by
  obtain ⟨sects, d1, d2, d3, d4⟩ := TDump.dump_document_defs h sb none
  have hall : devs.filter (TDump.selected none) = devs := List.filter_eq_self.mpr (fun _ _ => rfl)
  rw [hall] at d3 d4
  have hne := dump_nonempty d1
  have hmeans : ∀ d : Rst.DevT, d.means.2 = d.t.contents d.h := fun _ => rfl
  have hused : ∀ b, Used (docEvents sb sects) b ↔ MappedBy devs b := by
    intro b
    rw [used_doc]
    constructor
    · intro hu
      rcases used_meaning sects (fun _ => none) b hu with ⟨k, runs, h1, x, t, h2⟩ | ⟨p, hp, x, t, h2⟩
      · obtain ⟨d, hd, he⟩ := d4 k runs h1 _ h2
        exact ⟨d, hd, x, t, he⟩
      · rw [d3] at hp
        obtain ⟨d, hd, rfl⟩ := List.mem_map.mp hp
        exact ⟨d, hd, x, t, h2⟩
    · rintro ⟨d, hd, x, t, he⟩
      rcases meaning_used sects (fun _ => none) d.means (by rw [d3]; exact List.mem_map.mpr ⟨d, hd, rfl⟩) x b t he with h | ⟨n, es, e, _⟩
      · exact h
      · cases e
  have hu : Used (docEvents sb sects) = MappedBy devs := funext fun b => propext (hused b)
  have hp := shrink_plan nr (docEvents sb sects) hne
  unfold rebuild
  rw [d1]
  show match ((shrinkEvents nr (docEvents sb sects)).bind fun plan => some (plan.1, Rst.run plan.2 (Rst.R.new Nat _))) with
    | none => _
    | some (ops, r) => _
  cases hs : shrinkEvents nr (docEvents sb sects) with
  | none =>
    rw [hs] at hp
    simp only [Option.bind_none] at hp ⊢
    rw [← hu]
    exact hp
  | some plan =>
    obtain ⟨ops, evs'⟩ := plan
    obtain ⟨f, sects', e1, e2, e3, e4, e5⟩ := shrink_document nr sb sects d2 hne ops evs' hs
    simp only [Option.bind_some]
    rw [hu] at e1 e2
    refine ⟨f, e1, e2, ?_⟩
    subst e3
    have e6 : (devs.map fun d => (d.means.1, d.means.2.map (follow f))) = meaning (fun _ => none) sects' := by
      rw [e5, d3, List.map_map]; rfl
    rw [e6]
    refine Rst.restore_correct n max hmax hn mem' sb hsz sects' e4 ?_
    rw [e5, d3, List.map_map, List.map_map]
    unfold List.Nodup
    rw [List.pairwise_map]
    refine h.sorted.imp ?_
    intro a b hab e
    have e : a.id = b.id := e
    omega

/-! ## The size of the data device -/

/-- a document with a block beyond the new end -/
def demoSects : List (Sect Nat) := [.def 7 [⟨0, 1, 0, 2⟩], .dev ⟨1, ⟨5, 0, 0, 0⟩⟩ [.ref 7, .run ⟨4, 8, 3, 2⟩], .dev ⟨2, ⟨2, 1, 1, 1⟩⟩ [.ref 7]]

/-- the superblock of the document -/
def demoSb10 : SbIR := ⟨0, 1, 128, 10⟩

/-- the result for a device of 9 blocks: block 8 stays and 9 goes to 0 -/
def demoOut : List (Ev Nat) := [.sbB demoSb10, .defB 7, .map ⟨0, 1, 0, 2⟩, .defE, .devB ⟨1, ⟨5, 0, 0, 0⟩⟩, .ref 7, .map ⟨4, 8, 3, 1⟩, .map ⟨5, 0, 3, 1⟩, .devE,
  .devB ⟨2, ⟨2, 1, 1, 1⟩⟩, .ref 7, .devE, .sbE, .eof]

theorem demo_shrinks : shrinkEvents 9 (docEvents demoSb10 demoSects) = some ([(9, 0)], demoOut) := by rfl

example : shrinkEvents 4 (docEvents demoSb10 demoSects) = some ([(8, 0), (9, 3)],
    [.sbB demoSb10, .defB 7, .map ⟨0, 1, 0, 2⟩, .defE, .devB ⟨1, ⟨5, 0, 0, 0⟩⟩, .ref 7, .map ⟨4, 0, 3, 1⟩, .map ⟨5, 3, 3, 1⟩, .devE,
      .devB ⟨2, ⟨2, 1, 1, 1⟩⟩, .ref 7, .devE, .sbE, .eof]) := by rfl

example : shrinkEvents 3 (docEvents demoSb10 demoSects) = none := by rfl

example : (∀ m, Ev.map m ∈ docEvents demoSb10 demoSects → 1 ≤ m.len) ∧ Consistent (fun _ => none) demoSects := by
  constructor
  · intro m hm
    simp [docEvents, demoSects, Sect.events, Seg.ev] at hm
    rcases hm with rfl | rfl <;> decide
  · refine ⟨rfl, by unfold Sorted; decide, ⟨?_, by unfold Sorted; decide, ?_, by unfold Sorted; decide, trivial⟩⟩
    · intro n hn
      simp at hn
      subst hn
      exact ⟨_, rfl, Or.inl (by decide)⟩
    · intro n hn
      simp at hn
      subst hn
      exact ⟨_, rfl, Or.inl (by decide)⟩

/-- The new metadata does not record the new size: the superblock goes through unchanged (`src/thin/shrink.rs:169-171`), so `nr_data_blocks` is still the old one. -/
theorem shrink_size_refuted : ¬ ∀ (nr : Nat) (sb : SbIR) (sects : List (Sect Nat)) (ops : List (Nat × Nat)) (evs' : List (Ev Nat)), Consistent (fun _ => none) sects →
    (∀ m, Ev.map m ∈ docEvents sb sects → 1 ≤ m.len) → shrinkEvents nr (docEvents sb sects) = some (ops, evs') → ∀ sb', Ev.sbB sb' ∈ evs' → sb'.nrData = nr := by
  intro h
  have := h 9 demoSb10 [] [] [.sbB demoSb10, .sbE, .eof] trivial (by intro m hm; simp [docEvents] at hm) rfl demoSb10 (by simp)
  cases this

end Verif.Shrink
