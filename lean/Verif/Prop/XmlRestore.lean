import Verif.Prop.Xml
import Verif.Prop.ThinDump

/-!
# C55, C25: dumping thin metadata to XML and restoring the XML

`Prop/ThinDump.lean` feeds the events of a dump straight into a restore.  Here they go through the document: what `thin_dump` writes
and `thin_restore` reads gives the same metadata.
-/

namespace Verif.Xml

open Verif.Rst (DevT Ev SbIR DevIR Detail Val R RErr PostR Restored Sect Seg docEvents meaning Consistent Env SizeOK)
open Verif.TDump (Metadata selected dump)

/-- what `thin_restore` uses of an event -/
def toRst : TEv → Ev Str
  | .sbB sb => .sbB ⟨sb.time, sb.transaction, sb.blockSize, sb.nrData⟩
  | .sbE => .sbE
  | .defB n => .defB n
  | .defE => .defE
  | .devB d => .devB ⟨d.id, ⟨d.mapped, d.transaction, d.creation, d.snapTime⟩⟩
  | .devE => .devE
  | .map m => .map ⟨m.thin, m.data, m.time, m.len⟩
  | .ref n => .ref n
  | .eof => .eof

/-- the calls that `thin_dump` makes to the writer: the uuid is empty, there is no metadata snapshot, names of definitions are printed
numbers (`src/thin/dump.rs:304-306,321-343,358`) -/
def ofDump (flags version : Option Nat) : Ev Nat → TEv
  | .sbB sb => .sbB ⟨[], sb.time, sb.transaction, flags, version, sb.blockSize, sb.nrData, none⟩
  | .sbE => .sbE
  | .defB n => .defB (Units.showNat n)
  | .defE => .defE
  | .devB d => .devB ⟨d.id, d.detail.mapped, d.detail.transaction, d.detail.creation, d.detail.snap⟩
  | .devE => .devE
  | .map r => .map ⟨r.thin, r.data, r.time, r.len⟩
  | .ref n => .ref (Units.showNat n)
  | .eof => .eof

/-- `Restorer` as a visitor (`src/thin/restore.rs:228-348`) -/
def restorer : Visitor TEv (R Str) := fun r e =>
  match Rst.step (toRst e) r with
  | .ok r => .ok (r, .continue)
  | .error _ => .error .err

/-- the errors of a restore are errors of the reader -/
def asErr {α : Type} : Except RErr α → Except XErr α
  | .ok a => .ok a
  | .error _ => .error .err

theorem feed_run (es : List TEv) : ∀ r, feed .eof restorer r es = asErr (Rst.run (es.map toRst ++ [.eof]) r) := by
  induction es with
  | nil =>
    intro r
    rw [feed]
    show _ = asErr (Rst.step (toRst .eof) r >>= fun r => .ok r)
    unfold restorer
    cases h : Rst.step (toRst .eof) r with
    | error e => rfl
    | ok r' => rfl
  | cons e es ih =>
    intro r
    rw [feed]
    show _ = asErr (Rst.step (toRst e) r >>= fun r => Rst.run (es.map toRst ++ [.eof]) r)
    unfold restorer
    cases h : Rst.step (toRst e) r with
    | error e => rfl
    | ok r' => exact ih r'

theorem toRst_versioned (e : TEv) : toRst e.versioned = toRst e := by cases e <;> rfl

/-- **C55**: restoring a written document is restoring its events -/
theorem restore_xml (es : List TEv) (hok : ∀ e ∈ es, e.Ok) (hn : Nested TEv.opens TEv.closes [] es) (r : R Str) :
    thinRead restorer r (es.flatMap thinWrite) = asErr (Rst.run (es.map toRst ++ [.eof]) r) := by
  rw [thin_roundtrip _ _ _ hok hn, feed_run, List.map_map]
  congr 3
  exact List.map_congr_left fun e _ => toRst_versioned e

/-! ## Names -/

/-- other names in a segment -/
def mapSeg {N M : Type} (f : N → M) : Seg N → Seg M
  | .run r => .run r
  | .ref n => .ref (f n)

/-- other names in a section -/
def mapSect {N M : Type} (f : N → M) : Sect N → Sect M
  | .def n runs => .def (f n) runs
  | .dev d segs => .dev d (segs.map (mapSeg f))

theorem flatMap_congr' {α β : Type} {l : List α} {f g : α → List β} (h : ∀ a ∈ l, f a = g a) : l.flatMap f = l.flatMap g := by
  induction l with
  | nil => rfl
  | cons a l ih =>
    rw [List.flatMap_cons, List.flatMap_cons, h a (by simp), ih fun b hb => h b (by simp [hb])]

section

variable {N M : Type} [DecidableEq N] [DecidableEq M]

theorem vals_map (f : N → M) {env : Env N} {env' : Env M} (h : ∀ n, env' (f n) = env n) (s : Seg N) :
    Seg.vals env' (mapSeg f s) = Seg.vals env s := by
  cases s with
  | run r => rfl
  | ref n => show (env' (f n)).getD [] = (env n).getD []; rw [h]

theorem add_map {f : N → M} (hf : ∀ a b, f a = f b → a = b) {env : Env N} {env' : Env M} (h : ∀ n, env' (f n) = env n) (k : N)
    (es : List (Nat × Val)) : ∀ n, env'.add (f k) es (f n) = env.add k es n := by
  intro n
  unfold Env.add
  by_cases e : n = k
  · rw [if_pos e, if_pos (by rw [e])]
  · rw [if_neg e, if_neg (fun e' => e (hf _ _ e')), h]

theorem meaning_map {f : N → M} (hf : ∀ a b, f a = f b → a = b) (l : List (Sect N)) : ∀ (env : Env N) (env' : Env M),
    (∀ n, env' (f n) = env n) → meaning env' (l.map (mapSect f)) = meaning env l := by
  induction l with
  | nil => intro env env' _; rfl
  | cons s l ih =>
    intro env env' h
    cases s with
    | «def» n runs => exact ih _ _ (add_map hf h n _)
    | dev d segs =>
      show (d, (segs.map (mapSeg f)).flatMap (Seg.vals env')) :: meaning env' (l.map (mapSect f)) =
        (d, segs.flatMap (Seg.vals env)) :: meaning env l
      rw [ih _ _ h, List.flatMap_map]
      congr 2
      exact flatMap_congr' fun s _ => vals_map f h s

theorem consistent_map {f : N → M} (hf : ∀ a b, f a = f b → a = b) (l : List (Sect N)) : ∀ (env : Env N) (env' : Env M),
    (∀ n, env' (f n) = env n) → Consistent env l → Consistent env' (l.map (mapSect f)) := by
  induction l with
  | nil => intro env env' _ _; exact trivial
  | cons s l ih =>
    intro env env' h hc
    cases s with
    | «def» n runs => exact ⟨by rw [h]; exact hc.1, hc.2.1, ih _ _ (add_map hf h n _) hc.2.2⟩
    | dev d segs =>
      obtain ⟨h1, h2, h3⟩ := hc
      refine ⟨?_, ?_, ih _ _ h h3⟩
      · intro m hm
        obtain ⟨s, hs, e⟩ := List.mem_map.mp hm
        cases s with
        | run r => cases e
        | ref n =>
          cases e
          obtain ⟨es, g1, g2⟩ := h1 n hs
          refine ⟨es, by rw [h]; exact g1, g2.imp id ?_⟩
          intro e; rw [e]; rfl
      · rw [List.flatMap_map, flatMap_congr' fun s _ => vals_map f h s]; exact h2

end

theorem showNat_inj : ∀ a b, Units.showNat a = Units.showNat b → a = b := by
  intro a b h
  have ha := (Units.showNat_spec a).2.2
  have hb := (Units.showNat_spec b).2.2
  rw [h] at ha
  omega

/-! ## Documents of a dump -/

theorem nested_seg (fl ve : Option Nat) (segs : List (Seg Nat)) (st : List String) (rest : List TEv)
    (h : Nested TEv.opens TEv.closes st rest) :
    Nested TEv.opens TEv.closes st ((segs.map Seg.ev).map (ofDump fl ve) ++ rest) := by
  induction segs with
  | nil => exact h
  | cons s segs ih => cases s <;> exact ih

theorem nested_runs (fl ve : Option Nat) (runs : List Dump.Run) (st : List String) (rest : List TEv)
    (h : Nested TEv.opens TEv.closes st rest) :
    Nested TEv.opens TEv.closes st ((runs.map (fun r => (Ev.map r : Ev Nat))).map (ofDump fl ve) ++ rest) := by
  induction runs with
  | nil => exact h
  | cons s segs ih => exact ih

theorem nested_sects (fl ve : Option Nat) (sects : List (Sect Nat)) (st : List String) (rest : List TEv)
    (h : Nested TEv.opens TEv.closes st rest) :
    Nested TEv.opens TEv.closes st ((sects.flatMap Sect.events).map (ofDump fl ve) ++ rest) := by
  induction sects with
  | nil => exact h
  | cons s sects ih =>
    rw [List.flatMap_cons, List.map_append, List.append_assoc]
    cases s with
    | «def» n runs =>
      show Nested TEv.opens TEv.closes ("def" :: st) (((runs.map (fun r => (Ev.map r : Ev Nat))) ++ [Ev.defE]).map (ofDump fl ve) ++ _)
      rw [List.map_append, List.append_assoc]
      exact nested_runs _ _ _ _ _ ⟨st, rfl, ih⟩
    | dev d segs =>
      show Nested TEv.opens TEv.closes ("device" :: st) ((segs.map Seg.ev ++ [Ev.devE]).map (ofDump fl ve) ++ _)
      rw [List.map_append, List.append_assoc]
      exact nested_seg _ _ _ _ _ ⟨st, rfl, ih⟩

/-- the events of a document without the last call -/
def body (sb : SbIR) (sects : List (Sect Nat)) : List (Ev Nat) := .sbB sb :: (sects.flatMap Sect.events ++ [.sbE])

theorem docEvents_body (sb : SbIR) (sects : List (Sect Nat)) : docEvents sb sects = body sb sects ++ [.eof] := by
  simp [docEvents, body]

theorem body_nested (fl ve : Option Nat) (sb : SbIR) (sects : List (Sect Nat)) :
    Nested TEv.opens TEv.closes [] ((body sb sects).map (ofDump fl ve)) := by
  show Nested TEv.opens TEv.closes ["superblock"] ((sects.flatMap Sect.events ++ [Ev.sbE]).map (ofDump fl ve))
  rw [List.map_append]
  exact nested_sects _ _ _ _ _ ⟨[], rfl, trivial⟩

theorem digits_plain (n : Nat) : Plain (Units.showNat n) := by
  intro c hc
  have := (Units.showNat_spec n).1 c hc
  constructor <;> (rintro rfl; exact absurd this (by decide))

theorem ok_of_typed (fl ve : Option Nat) (e : Ev Nat) (h : (ofDump fl ve e).Typed) (he : e ≠ .eof) : (ofDump fl ve e).Ok := by
  cases e with
  | sbB sb =>
    obtain ⟨h1, h2, h3, h4, h5, h6, h7⟩ := h
    exact ⟨(by intro c hc; cases hc), h1, h2, h3, h4, h5, h6, h7⟩
  | sbE => exact trivial
  | defB n => exact digits_plain n
  | defE => exact trivial
  | devB d => exact h
  | devE => exact trivial
  | map r => exact h
  | ref n => exact digits_plain n
  | eof => exact absurd rfl he

theorem sectEvents_ne (s : Sect Nat) : ∀ e ∈ s.events, e ≠ .eof := by
  intro e he
  cases s with
  | «def» n runs =>
    simp only [Sect.events, List.mem_cons, List.mem_append, List.mem_map, List.not_mem_nil, or_false] at he
    rcases he with rfl | ⟨r, -, rfl⟩ | rfl <;> (intro h; cases h)
  | dev d segs =>
    simp only [Sect.events, List.mem_cons, List.mem_append, List.mem_map, List.not_mem_nil, or_false] at he
    rcases he with rfl | ⟨r, -, rfl⟩ | rfl
    · intro h; cases h
    · cases r <;> (intro h; cases h)
    · intro h; cases h

theorem body_ne (sb : SbIR) (sects : List (Sect Nat)) : ∀ e ∈ body sb sects, e ≠ .eof := by
  intro e he
  simp only [body, List.mem_cons, List.mem_append, List.mem_flatMap, List.not_mem_nil, or_false] at he
  rcases he with rfl | ⟨s, -, h⟩ | rfl
  · intro h; cases h
  · exact sectEvents_ne s e h
  · intro h; cases h

theorem body_toRst (fl ve : Option Nat) (sb : SbIR) (sects : List (Sect Nat)) :
    ((body sb sects).map (ofDump fl ve)).map toRst ++ [.eof] = docEvents sb (sects.map (mapSect Units.showNat)) := by
  have hseg : ∀ s : Sect Nat, (s.events.map (ofDump fl ve)).map toRst = (mapSect Units.showNat s).events := by
    intro s
    cases s with
    | «def» n runs =>
      show _ :: _ = _ :: _
      simp only [List.map_append, List.map_map, List.map_cons, List.map_nil, Sect.events, mapSect]
      rfl
    | dev d segs =>
      show _ :: _ = _ :: _
      simp only [List.map_append, List.map_map, List.map_cons, List.map_nil, Sect.events, mapSect]
      congr 2
      refine List.map_congr_left fun s _ => ?_
      cases s <;> rfl
  have hsects : ((sects.flatMap Sect.events).map (ofDump fl ve)).map toRst = (sects.map (mapSect Units.showNat)).flatMap Sect.events := by
    rw [List.map_flatMap, List.map_flatMap, List.flatMap_map]
    exact flatMap_congr' fun s _ => hseg s
  simp only [body, docEvents, List.map_cons, List.map_append, hsects, List.map_nil, List.cons_append, List.append_assoc]
  rfl

/-- **C25, C55**.  `thin_dump` to a file and `thin_restore` from it: for consistent metadata, whatever devices are selected, the
restored metadata has the same devices with the same details and mappings — and the restore does not fail except for lack of space or
an exhausted count.  The hypothesis says that all numbers have the sizes of their Rust types. -/
theorem dump_xml_restore {mem : Nat → Option (BT.Blk Val)} {nr mr dr : Nat} {devs : List DevT} (h : Metadata mem nr mr dr devs) (sb : SbIR)
    (hsz : SizeOK sb) (sel : Option (List Nat)) (n max : Nat) (hmax : 1 ≤ max) (hn : n < 2 ^ 64) (mem' : Nat → Option (BT.Blk Val))
    (fl ve : Option Nat) {evs : List (Ev Nat)} (hd : dump mem nr sb mr dr sel = some evs)
    (ht : ∀ e ∈ evs, (ofDump fl ve e).Typed) :
    ∃ x : Except RErr (R Str),
      thinRead restorer (R.new Str ⟨mem', SM.Core.new max n, [], []⟩) ((evs.map (ofDump fl ve)).flatMap thinWrite) = asErr x ∧
      PostR x (Restored n max sb ((devs.filter (selected sel)).map DevT.means)) := by
  obtain ⟨sects, d1, d2, d3⟩ := TDump.dump_document h sb sel
  rw [d1] at hd; cases hd
  have e : ((docEvents sb sects).map (ofDump fl ve)).flatMap thinWrite = ((body sb sects).map (ofDump fl ve)).flatMap thinWrite := by
    rw [docEvents_body, List.map_append, List.flatMap_append]
    exact List.append_nil _
  rw [e, restore_xml _ (by
    intro x hx
    obtain ⟨y, hy, rfl⟩ := List.mem_map.mp hx
    exact ok_of_typed fl ve y (ht y (by rw [docEvents_body]; simp [hy])) (body_ne _ _ y hy)) (body_nested _ _ _ _), body_toRst]
  refine ⟨_, rfl, ?_⟩
  have hm : meaning (fun _ => none) (sects.map (mapSect Units.showNat)) = meaning (fun _ => none) sects :=
    meaning_map showNat_inj sects _ _ fun _ => rfl
  rw [← d3, ← hm]
  refine Rst.restore_correct n max hmax hn mem' sb hsz _ (consistent_map showNat_inj sects _ _ (fun _ => rfl) d2) ?_
  rw [hm, d3, List.map_map]
  have hs : (devs.filter (selected sel)).Pairwise fun a b => a.id < b.id := h.sorted.sublist List.filter_sublist
  unfold List.Nodup
  rw [List.pairwise_map]
  refine hs.imp ?_
  intro a b hab e
  have e : a.id = b.id := e
  omega

/-! ## A document that is restored -/

/-- whether restoring succeeds, on a metadata device of 60 blocks -/
def restorable (es : List TEv) : Bool :=
  match Rst.run (es.map toRst ++ [.eof]) (R.new Str ⟨fun _ => none, SM.Core.new 1000 60, [], []⟩) with
  | .ok _ => true
  | .error _ => false

example : restorable demoT = true := by decide

example : ∃ r, thinRead restorer (R.new Str ⟨fun _ => none, SM.Core.new 1000 60, [], []⟩) (demoT.flatMap thinWrite) = .ok r := by
  rw [restore_xml _ demoT_ok demoT_nested]
  have h : restorable demoT = true := by decide
  unfold restorable at h
  split at h
  · next r e => rw [e]; exact ⟨r, rfl⟩
  · cases h

end Verif.Xml
