import Verif.Model.Xml
import Verif.Prop.Units
import Verif.Prop.NodePath

/-!
# C55: documents read back as they were written

`thin_dump`, `cache_dump` and `era_dump` hand events to a writer, the restore tools get them back from a reader.  For every list of
events and every visitor, reading the written document has exactly the effect of calling the visitor with the events.
-/

namespace Verif.Xml

open Verif.Units

/-! ## Specification -/

/-- call a visitor with the events, one after the other, and with `eof` at the end, until it wants to stop -/
def feed {E σ : Type} (eof : E) (v : Visitor E σ) : σ → List E → Except XErr σ
  | s, [] => match v s eof with | .error e => .error e | .ok r => .ok r.1
  | s, e :: es =>
    match v s e with
    | .error e => .error e
    | .ok (s, .stop) => .ok s
    | .ok (s, .continue) => feed eof v s es

/-- a string that may stand in an attribute as it is -/
def Plain (s : Str) : Prop := ∀ c ∈ s, c ≠ '&' ∧ c ≠ '"'

/-- begin and end events match: `opens` and `closes` give the names of the elements that an event begins and ends -/
def Nested {E : Type} (opens closes : E → Option String) : List String → List E → Prop
  | _, [] => True
  | st, e :: es =>
    match opens e, closes e with
    | some n, _ => Nested opens closes (n :: st) es
    | none, some n => ∃ st', st = n :: st' ∧ Nested opens closes st' es
    | none, none => Nested opens closes st es

/-! ## Attributes -/

theorem unescape_plain {s : Str} (h : Plain s) : unescape none s = some s := by
  induction s with
  | nil => rfl
  | cons c cs ih =>
    rw [unescape, if_neg (h c (by simp)).1, ih (fun d hd => h d (by simp [hd]))]; rfl

theorem scan_val (k : Str) (v acc rest : Str) (h : '"' ∉ v) :
    scan (.val k '"' acc) (v ++ '"' :: rest) = some ⟨String.ofList k, acc ++ v⟩ :: scan .skip rest := by
  induction v generalizing acc with
  | nil => rw [List.nil_append, scan, if_pos rfl, List.append_nil]
  | cons c cs ih =>
    rw [List.cons_append, scan, if_neg (by rintro rfl; exact h (by simp)), ih _ (fun hc => h (by simp [hc])), List.append_assoc]
    rfl

/-- a key that an attribute may have -/
def KeyOk (k : Str) : Prop := k ≠ [] ∧ ∀ c ∈ k, c ≠ '=' ∧ ws c = false

instance (k : Str) : Decidable (KeyOk k) := inferInstanceAs (Decidable (_ ∧ _))

theorem scan_key (k acc rest : Str) (h : ∀ c ∈ k, c ≠ '=' ∧ ws c = false) :
    scan (.key acc) (k ++ '=' :: rest) = scan (.eq (acc ++ k)) rest := by
  induction k generalizing acc with
  | nil => rw [List.nil_append, scan, if_pos rfl, List.append_nil]
  | cons c cs ih =>
    rw [List.cons_append, scan, if_neg (h c (by simp)).1, if_neg (by rw [(h c (by simp)).2]; simp),
      ih _ (fun d hd => h d (by simp [hd])), List.append_assoc]
    rfl

theorem scan_attr (a : Attr) (rest : Str) (hk : KeyOk a.key.toList) (hv : '"' ∉ a.val) :
    scan .skip (' ' :: a.key.toList ++ '=' :: '"' :: a.val ++ ['"'] ++ rest) = some a :: scan .skip rest := by
  obtain ⟨h0, h1⟩ := hk
  have e : String.ofList a.key.toList = a.key := String.ofList_toList
  generalize a.key.toList = k at *
  cases k with
  | nil => exact absurd rfl h0
  | cons c cs =>
    simp only [List.cons_append, List.append_assoc, List.nil_append]
    rw [scan, if_pos (by decide), scan, if_neg (by rw [(h1 c (by simp)).2]; simp), if_neg (h1 c (by simp)).1,
      scan_key _ _ _ (fun d hd => h1 d (by simp [hd])), scan, if_neg (by decide), if_pos (Or.inl rfl), scan_val _ _ _ _ hv]
    simp only [List.nil_append, List.singleton_append, e]

/-- an attribute that is read as it was written -/
def AttrOk (a : Attr) : Prop := KeyOk a.key.toList ∧ '"' ∉ a.val

theorem scan_attrText (as : List Attr) (h : ∀ a ∈ as, AttrOk a) : scan .skip (attrText as) = as.map some := by
  induction as with
  | nil => rfl
  | cons a as ih =>
    have : attrText (a :: as) = ' ' :: a.key.toList ++ '=' :: '"' :: a.val ++ ['"'] ++ attrText as := rfl
    rw [this, scan_attr _ _ (h a (by simp)).1 (h a (by simp)).2, ih (fun b hb => h b (by simp [hb]))]
    rfl

/-- reading attributes whose keys differ is folding the `match` over them -/
theorem attrs_text {σ : Type} (step : σ → Attr → Except XErr σ) (s : σ) (as : List Attr) (h : ∀ a ∈ as, AttrOk a)
    (hd : (as.map (·.key)).Nodup) : attrs step s (attrText as) = as.foldlM step s := by
  unfold attrs
  rw [scan_attrText as h]
  have : ∀ (as : List Attr) (seen : List String) (s : σ), (as.map (·.key)).Nodup → (∀ a ∈ as, a.key ∉ seen) →
      foldAttrs step seen s (as.map some) = as.foldlM step s := by
    intro as
    induction as with
    | nil => intro seen s _ _; rfl
    | cons a as ih =>
      intro seen s hn hs
      rw [List.map_cons, foldAttrs, if_neg (hs a (by simp)), List.foldlM_cons]
      rw [List.map_cons, List.nodup_cons] at hn
      cases step s a with
      | error e => rfl
      | ok s' =>
        refine ih _ _ hn.2 (fun b hb hm => ?_)
        rcases List.mem_cons.mp hm with hm | hm
        · exact hn.1 (List.mem_map.mpr ⟨b, hb, hm⟩)
        · exact hs b (by simp [hb]) hm
  exact this as [] s hd (by simp)

theorem digits_quote (n : Nat) : '"' ∉ showNat n := by
  intro h
  exact absurd ((showNat_spec n).1 _ h) (by decide)

theorem num_ok {k : String} (n : Nat) (h : KeyOk k.toList) : AttrOk (numAttr k n) := ⟨h, digits_quote n⟩

theorem plain_ok {k : String} {v : Str} (h : KeyOk k.toList) (hv : Plain v) : AttrOk ⟨k, v⟩ :=
  ⟨h, fun hc => (hv _ hc).2 rfl⟩

theorem u64Val_num {k : String} {n : Nat} (h : n < 2 ^ 64) : u64Val (numAttr k n) = .ok n := by
  unfold u64Val numAttr; rw [showNat_parse n h]; rfl

theorem u32Val_num {k : String} {n : Nat} (h : n < 2 ^ 32) : u32Val (numAttr k n) = .ok n := by
  unfold u32Val numAttr
  rw [showNat_parse n (by omega)]
  simp only [Option.filter_some, decide_eq_true h, if_true]
  rfl

theorem stringVal_plain {k : String} {v : Str} (h : Plain v) : stringVal ⟨k, v⟩ = .ok v := by
  unfold stringVal; rw [unescape_plain h]; rfl

theorem boolVal_show (k : String) (b : Bool) : boolVal ⟨k, showBool b⟩ = .ok b := by cases b <;> rfl

theorem showBool_quote (b : Bool) : '"' ∉ showBool b := by cases b <;> decide

theorem ok_bind {α β : Type} (a : α) (f : α → Except XErr β) : ((Except.ok a : Except XErr α) >>= f) = f a := rfl

theorem checkAttr_some {α : Type} (a : α) : checkAttr (some a) = .ok a := rfl

theorem num_key (k : String) (n : Nat) : (numAttr k n).key = k := rfl

/-! ## Thin metadata -/

/-- the types of the fields (`u32`, `u64`), and plain strings -/
def TEv.Ok : TEv → Prop
  | .sbB sb => Plain sb.uuid ∧ sb.time < 2 ^ 32 ∧ sb.transaction < 2 ^ 64 ∧ (∀ f ∈ sb.flags, f < 2 ^ 32) ∧
      (∀ f ∈ sb.version, f < 2 ^ 32) ∧ sb.blockSize < 2 ^ 32 ∧ sb.nrData < 2 ^ 64 ∧ (∀ f ∈ sb.snap, f < 2 ^ 64)
  | .devB d => d.id < 2 ^ 32 ∧ d.mapped < 2 ^ 64 ∧ d.transaction < 2 ^ 64 ∧ d.creation < 2 ^ 32 ∧ d.snapTime < 2 ^ 32
  | .map m => m.thin < 2 ^ 64 ∧ m.data < 2 ^ 64 ∧ m.time < 2 ^ 32 ∧ m.len < 2 ^ 64
  | .defB n => Plain n
  | .ref n => Plain n
  | .eof => False
  | _ => True

/-- the version that is written when there is none: 2 -/
def TEv.versioned : TEv → TEv
  | .sbB sb => .sbB { sb with version := some (sb.version.getD 2) }
  | e => e

theorem parseTSb_write (sb : TSb) (h : (TEv.sbB sb).Ok) :
    parseTSb (attrText (tsbAttrs sb)) = .ok { sb with version := some (sb.version.getD 2) } := by
  obtain ⟨h1, h2, h3, h4, h5, h6, h7, h8⟩ := h
  obtain ⟨uuid, time, tr, flags, version, bs, nr, snap⟩ := sb
  simp only at h1 h2 h3 h4 h5 h6 h7 h8
  have hv : version.getD 2 < 2 ^ 32 := by
    cases version with
    | none => show 2 < 2 ^ 32; decide
    | some v => exact h5 v rfl
  unfold parseTSb
  have hu := stringVal_plain (k := "uuid") h1
  have hok : ∀ a ∈ tsbAttrs ⟨uuid, time, tr, flags, version, bs, nr, snap⟩, AttrOk a := by
    intro a ha
    simp only [tsbAttrs, optAttr, List.mem_append, List.mem_cons, List.not_mem_nil, or_false] at ha
    rcases ha with ((((rfl | rfl | rfl) | ha) | (rfl | rfl | rfl)) | ha)
    · exact plain_ok (by decide) h1
    · exact num_ok _ (by decide)
    · exact num_ok _ (by decide)
    · cases flags with
      | none => cases ha
      | some f => rw [List.mem_singleton] at ha; subst ha; exact num_ok _ (by decide)
    · exact num_ok _ (by decide)
    · exact num_ok _ (by decide)
    · exact num_ok _ (by decide)
    · cases snap with
      | none => cases ha
      | some f => rw [List.mem_singleton] at ha; subst ha; exact num_ok _ (by decide)
  have hnd : ((tsbAttrs ⟨uuid, time, tr, flags, version, bs, nr, snap⟩).map (·.key)).Nodup := by
    cases flags <;> cases snap <;> simp [tsbAttrs, optAttr, numAttr]
  rw [attrs_text _ _ _ hok hnd]
  have hpure : ∀ x : TSbA, (pure x : Except XErr TSbA) = .ok x := fun _ => rfl
  cases flags with
  | none =>
    cases snap with
    | none => simp [tsbAttrs, optAttr, tsbStep, hu, u32Val_num, u64Val_num, h2, h3, h6, h7, hv, checkAttr_some, ok_bind, num_key, hpure]
    | some n =>
      have := h8 n rfl
      simp [tsbAttrs, optAttr, tsbStep, hu, u32Val_num, u64Val_num, h2, h3, h6, h7, hv, checkAttr_some, ok_bind, num_key, hpure, this]
  | some f =>
    have hf := h4 f rfl
    cases snap with
    | none => simp [tsbAttrs, optAttr, tsbStep, hu, u32Val_num, u64Val_num, h2, h3, h6, h7, hv, checkAttr_some, ok_bind, num_key, hpure, hf]
    | some n =>
      have := h8 n rfl
      simp [tsbAttrs, optAttr, tsbStep, hu, u32Val_num, u64Val_num, h2, h3, h6, h7, hv, checkAttr_some, ok_bind, num_key, hpure, hf, this]


theorem parseDef_write (n : Str) (h : Plain n) : parseDef (attrText [⟨"name", n⟩]) = .ok n := by
  have hu := stringVal_plain (k := "name") h
  unfold parseDef
  rw [attrs_text _ _ _ (by
    intro a ha
    rw [List.mem_singleton] at ha; subst ha
    exact plain_ok (by decide) h) (by simp)]
  have hpure : ∀ x : Option Str, (pure x : Except XErr (Option Str)) = .ok x := fun _ => rfl
  simp [defStep, hu, ok_bind, hpure]

/-- one attribute after the other -/
theorem ok_cons {a : Attr} {l : List Attr} (h : AttrOk a) (hl : ∀ x ∈ l, AttrOk x) : ∀ x ∈ a :: l, AttrOk x := by
  intro x hx
  rcases List.mem_cons.mp hx with rfl | hx
  · exact h
  · exact hl x hx

theorem ok_nil : ∀ x ∈ ([] : List Attr), AttrOk x := by intro x hx; cases hx

theorem nn {k : String} {n : Nat} {l : List Attr} (h : KeyOk k.toList) (hl : ∀ x ∈ l, AttrOk x) : ∀ x ∈ numAttr k n :: l, AttrOk x :=
  ok_cons (num_ok n h) hl

theorem parseTDev_write (d : TDev) (h : (TEv.devB d).Ok) : parseTDev (attrText (tdevAttrs d)) = .ok d := by
  obtain ⟨h1, h2, h3, h4, h5⟩ := h
  unfold parseTDev tdevAttrs
  rw [attrs_text _ _ _ (nn (by decide) (nn (by decide) (nn (by decide) (nn (by decide) (nn (by decide) ok_nil))))) (by simp [numAttr])]
  have hpure : ∀ x : TDevA, (pure x : Except XErr TDevA) = .ok x := fun _ => rfl
  simp [tdevStep, u32Val_num, u64Val_num, h1, h2, h3, h4, h5, checkAttr_some, ok_bind, num_key, hpure]

theorem parseSingle_write (m : TMap) (h : (TEv.map m).Ok) (h1 : m.len = 1) :
    parseSingle (attrText [numAttr "origin_block" m.thin, numAttr "data_block" m.data, numAttr "time" m.time]) = .ok m := by
  obtain ⟨h2, h3, h4, h5⟩ := h
  unfold parseSingle
  rw [attrs_text _ _ _ (nn (by decide) (nn (by decide) (nn (by decide) ok_nil))) (by simp [numAttr])]
  have hpure : ∀ x : TMapA, (pure x : Except XErr TMapA) = .ok x := fun _ => rfl
  simp [singleStep, u32Val_num, u64Val_num, h2, h3, h4, checkAttr_some, ok_bind, num_key, hpure]
  rw [← h1]

theorem parseRange_write (m : TMap) (h : (TEv.map m).Ok) :
    parseRangeMap (attrText [numAttr "origin_begin" m.thin, numAttr "data_begin" m.data, numAttr "length" m.len,
      numAttr "time" m.time]) = .ok m := by
  obtain ⟨h2, h3, h4, h5⟩ := h
  unfold parseRangeMap
  rw [attrs_text _ _ _ (nn (by decide) (nn (by decide) (nn (by decide) (nn (by decide) ok_nil)))) (by simp [numAttr])]
  have hpure : ∀ x : TMapA, (pure x : Except XErr TMapA) = .ok x := fun _ => rfl
  simp [rangeStep, u32Val_num, u64Val_num, h2, h3, h4, h5, checkAttr_some, ok_bind, num_key, hpure]

/-! ## Documents -/

/-- the events that the tags of a document stand for, when the elements `st` are open at its begin -/
inductive Reads {E : Type} (start : String → Str → Except XErr E) (close : String → Except XErr E)
    (empty : String → Str → Except XErr (Option E)) : List String → List Tok → List E → Prop
  | nil (st) : Reads start close empty st [] []
  | start {st n t e ts es} : start n t = .ok e → Reads start close empty (n :: st) ts es →
      Reads start close empty st (.start n t :: ts) (e :: es)
  | close {st n e ts es} : close n = .ok e → Reads start close empty st ts es →
      Reads start close empty (n :: st) (.close n :: ts) (e :: es)
  | empty {st n t e ts es} : empty n t = .ok (some e) → Reads start close empty st ts es →
      Reads start close empty st (.empty n t :: ts) (e :: es)
  | skip {st n t ts es} : empty n t = .ok none → Reads start close empty st ts es →
      Reads start close empty st (.empty n t :: ts) es
  | text {st ts es} : Reads start close empty st ts es → Reads start close empty st (.text :: ts) es
  | comment {st ts es} : Reads start close empty st ts es → Reads start close empty st (.comment :: ts) es

theorem read_feed {E σ : Type} {start : String → Str → Except XErr E} {close : String → Except XErr E}
    {empty : String → Str → Except XErr (Option E)} (eof : E) (v : Visitor E σ) {st : List String} {ts : List Tok} {es : List E}
    (h : Reads start close empty st ts es) : ∀ s, read start close empty eof v st s ts = feed eof v s es := by
  induction h with
  | nil st => intro s; rfl
  | start h1 _ ih =>
    intro s
    rw [read, h1, feed]
    simp only
    rcases v s _ with e | ⟨s', _ | _⟩
    · rfl
    · exact ih s'
    · rfl
  | close h1 _ ih =>
    intro s
    rw [read, feed]
    simp only [ne_eq, not_true, if_false, h1]
    rcases v s _ with e | ⟨s', _ | _⟩
    · rfl
    · exact ih s'
    · rfl
  | empty h1 _ ih =>
    intro s
    rw [read, h1, feed]
    simp only
    rcases v s _ with e | ⟨s', _ | _⟩
    · rfl
    · exact ih s'
    · rfl
  | skip h1 _ ih => intro s; rw [read, h1]; exact ih s
  | text _ ih => intro s; rw [read]; exact ih s
  | comment _ ih => intro s; rw [read]; exact ih s

/-- the visitor that records everything -/
def recorder (E : Type) : Visitor E (List E) := fun s e => .ok (s ++ [e], .continue)

/-- a document is accepted exactly if its tags stand for events; a visitor that does not object sees them all, then `eof` -/
theorem read_iff {E : Type} (start : String → Str → Except XErr E) (close : String → Except XErr E)
    (empty : String → Str → Except XErr (Option E)) (eof : E) (st : List String) (ts : List Tok) (seen out : List E) :
    read start close empty eof (recorder E) st seen ts = .ok out ↔
      ∃ es, Reads start close empty st ts es ∧ out = seen ++ es ++ [eof] := by
  constructor
  · induction ts generalizing st seen with
    | nil =>
      intro h
      rw [read] at h
      simp only [recorder, Except.ok.injEq] at h
      exact ⟨[], .nil st, by simp [← h]⟩
    | cons t ts ih =>
      intro h
      cases t with
      | start n t =>
        rw [read] at h
        rcases h1 : start n t with e | ev
        · rw [h1] at h; cases h
        · rw [h1] at h
          obtain ⟨es, h2, h3⟩ := ih _ _ h
          exact ⟨ev :: es, .start h1 h2, by simp [h3]⟩
      | empty n t =>
        rw [read] at h
        rcases h1 : empty n t with e | _ | ev
        · rw [h1] at h; cases h
        · rw [h1] at h
          obtain ⟨es, h2, h3⟩ := ih _ _ h
          exact ⟨es, .skip h1 h2, h3⟩
        · rw [h1] at h
          obtain ⟨es, h2, h3⟩ := ih _ _ h
          exact ⟨ev :: es, .empty h1 h2, by simp [h3]⟩
      | close n =>
        cases st with
        | nil => rw [read] at h; cases h
        | cons o st =>
          rw [read] at h
          by_cases ho : o = n
          · subst ho
            simp only [ne_eq, not_true, if_false] at h
            rcases h1 : close o with e | ev
            · rw [h1] at h; cases h
            · rw [h1] at h
              obtain ⟨es, h2, h3⟩ := ih _ _ h
              exact ⟨ev :: es, .close h1 h2, by simp [h3]⟩
          · simp only [ne_eq, ho, not_false_eq_true, if_true] at h; cases h
      | text =>
        rw [read] at h
        obtain ⟨es, h2, h3⟩ := ih _ _ h
        exact ⟨es, .text h2, h3⟩
      | comment =>
        rw [read] at h
        obtain ⟨es, h2, h3⟩ := ih _ _ h
        exact ⟨es, .comment h2, h3⟩
      | other => rw [read] at h; cases h
      | bad => rw [read] at h; cases h
  · rintro ⟨es, h1, rfl⟩
    rw [read_feed _ _ h1]
    have : ∀ (es seen : List E), feed eof (recorder E) seen es = .ok (seen ++ es ++ [eof]) := by
      intro es
      induction es with
      | nil => intro seen; simp [feed, recorder]
      | cons e es ih =>
        intro seen
        show feed eof (recorder E) (seen ++ [e]) es = _
        rw [ih]; simp
    exact this es seen

/-! ## Thin documents -/

/-- which element a call begins -/
def TEv.opens : TEv → Option String
  | .sbB _ => some "superblock" | .defB _ => some "def" | .devB _ => some "device" | _ => none

/-- which element a call ends -/
def TEv.closes : TEv → Option String
  | .sbE => some "superblock" | .defE => some "def" | .devE => some "device" | _ => none

theorem thin_reads (es : List TEv) : ∀ st, (∀ e ∈ es, e.Ok) → Nested TEv.opens TEv.closes st es →
    Reads thinStart thinClose thinEmpty st (es.flatMap thinWrite) (es.map TEv.versioned) := by
  induction es with
  | nil => intro st _ _; exact .nil st
  | cons e es ih =>
    intro st hok hn
    have he := hok e (by simp)
    have hes : ∀ x ∈ es, x.Ok := fun x hx => hok x (by simp [hx])
    cases e with
    | sbB sb =>
      refine .start (e := .sbB _) ?_ (ih _ hes hn)
      simp only [thinStart, if_true, parseTSb_write sb he]; rfl
    | defB n =>
      refine .start (e := .defB _) ?_ (ih _ hes hn)
      simp only [thinStart, if_true, parseDef_write n he]; rfl
    | devB d =>
      refine .start (e := .devB _) ?_ (ih _ hes hn)
      simp only [thinStart, if_true, parseTDev_write d he]; rfl
    | sbE => obtain ⟨st', rfl, hn⟩ := hn; exact .close rfl (ih _ hes hn)
    | defE => obtain ⟨st', rfl, hn⟩ := hn; exact .close rfl (ih _ hes hn)
    | devE => obtain ⟨st', rfl, hn⟩ := hn; exact .close rfl (ih _ hes hn)
    | map m =>
      simp only [List.flatMap_cons, thinWrite]
      by_cases h1 : m.len = 1
      · rw [if_pos h1]
        refine .empty (e := .map m) ?_ (ih _ hes hn)
        simp only [thinEmpty, if_true, parseSingle_write m he h1]; rfl
      · rw [if_neg h1]
        refine .empty (e := .map m) ?_ (ih _ hes hn)
        simp only [thinEmpty, if_true, parseRange_write m he]; rfl
    | ref n =>
      refine .empty (e := .ref n) ?_ (ih _ hes hn)
      simp only [thinEmpty, if_true, parseDef_write n he]; rfl
    | eof => exact absurd he id

/-- **C55** (thin): for every list of events — well nested, with plain strings, numbers of their types — and every visitor: reading
the document that was written has the effect of calling the visitor with the events.  A superblock without version gets version 2. -/
theorem thin_roundtrip {σ : Type} (v : Visitor TEv σ) (s : σ) (es : List TEv) (hok : ∀ e ∈ es, e.Ok)
    (hn : Nested TEv.opens TEv.closes [] es) :
    thinRead v s (es.flatMap thinWrite) = feed .eof v s (es.map TEv.versioned) :=
  read_feed _ _ (thin_reads es [] hok hn) s


/-- `read_superblock` (`thin_shrink`) gives the first superblock of the document -/
theorem thin_readSuperblock (sb : TSb) (es : List TEv) (hok : ∀ e ∈ TEv.sbB sb :: es, e.Ok)
    (hn : Nested TEv.opens TEv.closes [] (.sbB sb :: es)) :
    readSuperblock ((TEv.sbB sb :: es).flatMap thinWrite) = .ok { sb with version := some (sb.version.getD 2) } := by
  unfold readSuperblock
  rw [thin_roundtrip _ _ _ hok hn]
  rfl

/-! ## Cache documents -/

/-- the types of the fields, and plain strings.  A document has no discards: nothing dumps them. -/
def CEv.Ok : CEv → Prop
  | .sbB sb => Plain sb.uuid ∧ sb.blockSize < 2 ^ 32 ∧ sb.nrCache < 2 ^ 32 ∧ Plain sb.policy ∧ sb.hintWidth < 2 ^ 32
  | .mapping c o _ => c < 2 ^ 32 ∧ o < 2 ^ 64
  | .hint c _ => c < 2 ^ 32
  | .discardsB => False
  | .discardsE => False
  | .discard _ _ => False
  | .eof => False
  | _ => True

/-- which element a call begins -/
def CEv.opens : CEv → Option String
  | .sbB _ => some "superblock" | .mappingsB => some "mappings" | .hintsB => some "hints" | .discardsB => some "discards" | _ => none

/-- which element a call ends -/
def CEv.closes : CEv → Option String
  | .sbE => some "superblock" | .mappingsE => some "mappings" | .hintsE => some "hints" | .discardsE => some "discards" | _ => none

theorem parseCSb_write (sb : CSb) (h : (CEv.sbB sb).Ok) :
    parseCSb (attrText [⟨"uuid", sb.uuid⟩, numAttr "block_size" sb.blockSize, numAttr "nr_cache_blocks" sb.nrCache,
      ⟨"policy", sb.policy⟩, numAttr "hint_width" sb.hintWidth]) = .ok sb := by
  obtain ⟨h1, h2, h3, h4, h5⟩ := h
  have hu := stringVal_plain (k := "uuid") h1
  have hp := stringVal_plain (k := "policy") h4
  unfold parseCSb
  rw [attrs_text _ _ _ (ok_cons (plain_ok (by decide) h1) (nn (by decide) (nn (by decide) (ok_cons (plain_ok (by decide) h4)
    (nn (by decide) ok_nil))))) (by simp [numAttr])]
  have hpure : ∀ x : CSbA, (pure x : Except XErr CSbA) = .ok x := fun _ => rfl
  simp [csbStep, hu, hp, u32Val_num, h2, h3, h5, checkAttr_some, ok_bind, num_key, hpure]

theorem parseCMap_write (c o : Nat) (d : Bool) (h1 : c < 2 ^ 32) (h2 : o < 2 ^ 64) :
    parseCMap (attrText [numAttr "cache_block" c, numAttr "origin_block" o, ⟨"dirty", showBool d⟩]) = .ok (.mapping c o d) := by
  have hb := boolVal_show "dirty" d
  unfold parseCMap
  rw [attrs_text _ _ _ (nn (by decide) (nn (by decide) (ok_cons (a := ⟨"dirty", showBool d⟩) ⟨(by decide : KeyOk "dirty".toList), showBool_quote d⟩ ok_nil))) (by simp [numAttr])]
  have hpure : ∀ x : CMapA, (pure x : Except XErr CMapA) = .ok x := fun _ => rfl
  simp [cmapStep, hb, u32Val_num, u64Val_num, h1, h2, checkAttr_some, ok_bind, num_key, hpure]

theorem sym_quote : ∀ i < 64, NPath.sym i ≠ '"' := by decide

theorem encode64_quote : ∀ bs : Bytes, '"' ∉ NPath.encode64 bs
  | [] => by simp [NPath.encode64]
  | [a] => by
    have := a.toNat_lt
    unfold NPath.encode64
    have h1 := (sym_quote (a.toNat / 4) (by omega)).symm
    have h2 := (sym_quote (a.toNat % 4 * 16) (by omega)).symm
    simp [h1, h2]
  | [a, b] => by
    have := a.toNat_lt
    have := b.toNat_lt
    unfold NPath.encode64
    have h1 := (sym_quote (a.toNat / 4) (by omega)).symm
    have h2 := (sym_quote (a.toNat % 4 * 16 + b.toNat / 16) (by omega)).symm
    have h3 := (sym_quote (b.toNat % 16 * 4) (by omega)).symm
    simp [h1, h2, h3]
  | a :: b :: c :: r => by
    have := a.toNat_lt
    have := b.toNat_lt
    have := c.toNat_lt
    unfold NPath.encode64
    have h1 := (sym_quote (a.toNat / 4) (by omega)).symm
    have h2 := (sym_quote (a.toNat % 4 * 16 + b.toNat / 16) (by omega)).symm
    have h3 := (sym_quote (b.toNat % 16 * 4 + c.toNat / 64) (by omega)).symm
    have h4 := (sym_quote (c.toNat % 64) (by omega)).symm
    simp [h1, h2, h3, h4, encode64_quote r]

theorem parseCHint_write (c : Nat) (d : Bytes) (h1 : c < 2 ^ 32) :
    parseCHint (attrText [numAttr "cache_block" c, ⟨"data", NPath.encode64 d⟩]) = .ok (.hint c d) := by
  unfold parseCHint
  rw [attrs_text _ _ _ (nn (by decide) (ok_cons (a := ⟨"data", _⟩) ⟨(by decide : KeyOk "data".toList), encode64_quote d⟩ ok_nil)) (by simp [numAttr])]
  have hpure : ∀ x : Option Nat × Option Bytes, (pure x : Except XErr (Option Nat × Option Bytes)) = .ok x := fun _ => rfl
  have hd : orErr (NPath.decode64 (NPath.encode64 d)) = .ok d := by rw [NPath.decode_encode64]; rfl
  simp [chintStep, u32Val_num, h1, hd, checkAttr_some, ok_bind, num_key, hpure]

theorem cache_reads (es : List CEv) : ∀ st, (∀ e ∈ es, e.Ok) → Nested CEv.opens CEv.closes st es →
    Reads cacheStart cacheClose cacheEmpty st (es.flatMap cacheWrite) es := by
  induction es with
  | nil => intro st _ _; exact .nil st
  | cons e es ih =>
    intro st hok hn
    have he := hok e (by simp)
    have hes : ∀ x ∈ es, x.Ok := fun x hx => hok x (by simp [hx])
    cases e with
    | sbB sb =>
      refine .start (e := .sbB _) ?_ (ih _ hes hn)
      simp only [cacheStart, if_true, parseCSb_write sb he]; rfl
    | mappingsB => exact .start rfl (ih _ hes hn)
    | hintsB => exact .start rfl (ih _ hes hn)
    | sbE => obtain ⟨st', rfl, hn⟩ := hn; exact .close rfl (ih _ hes hn)
    | mappingsE => obtain ⟨st', rfl, hn⟩ := hn; exact .close rfl (ih _ hes hn)
    | hintsE => obtain ⟨st', rfl, hn⟩ := hn; exact .close rfl (ih _ hes hn)
    | mapping c o d =>
      refine .empty (e := .mapping c o d) ?_ (ih _ hes hn)
      simp only [cacheEmpty, if_true, parseCMap_write c o d he.1 he.2]; rfl
    | hint c d =>
      refine .empty (e := .hint c d) ?_ (ih _ hes hn)
      simp only [cacheEmpty, if_true, parseCHint_write c d he]; rfl
    | discardsB => exact absurd he id
    | discardsE => exact absurd he id
    | discard b e => exact absurd he id
    | eof => exact absurd he id

/-- **C55** (cache): reading the document that was written has the effect of calling the visitor with the events -/
theorem cache_roundtrip {σ : Type} (v : Visitor CEv σ) (s : σ) (es : List CEv) (hok : ∀ e ∈ es, e.Ok)
    (hn : Nested CEv.opens CEv.closes [] es) : cacheRead v s (es.flatMap cacheWrite) = feed .eof v s es :=
  read_feed _ _ (cache_reads es [] hok hn) s

/-! ## Era documents -/

/-- the types of the fields, and plain strings; a run of blocks ends below `2^32` -/
def EEv.Ok : EEv → Prop
  | .sbB sb => Plain sb.uuid ∧ sb.blockSize < 2 ^ 32 ∧ sb.nrBlocks < 2 ^ 32 ∧ sb.currentEra < 2 ^ 32
  | .wsB e n => e < 2 ^ 32 ∧ n < 2 ^ 32
  | .blocks b len => b + len < 2 ^ 32
  | .era b e => b < 2 ^ 32 ∧ e < 2 ^ 32
  | .eof => False
  | _ => True

/-- which element a call begins -/
def EEv.opens : EEv → Option String
  | .sbB _ => some "superblock" | .wsB _ _ => some "writeset" | .eraB => some "era_array" | _ => none

/-- which element a call ends -/
def EEv.closes : EEv → Option String
  | .sbE => some "superblock" | .wsE => some "writeset" | .eraE => some "era_array" | _ => none

/-- what the reader makes of an event of the writer: the blocks of a run one by one unless the document is compact -/
def EEv.unroll (compact : Bool) : EEv → List EEv
  | .blocks b len => if compact then [.blocks b len] else (List.range len).map fun i => .blocks (b + i) 1
  | e => [e]

theorem parseESb_write (sb : ESb) (h : (EEv.sbB sb).Ok) :
    parseESb (attrText [⟨"uuid", sb.uuid⟩, numAttr "block_size" sb.blockSize, numAttr "nr_blocks" sb.nrBlocks,
      numAttr "current_era" sb.currentEra]) = .ok sb := by
  obtain ⟨h1, h2, h3, h4⟩ := h
  have hu := stringVal_plain (k := "uuid") h1
  unfold parseESb
  rw [attrs_text _ _ _ (ok_cons (plain_ok (by decide) h1) (nn (by decide) (nn (by decide) (nn (by decide) ok_nil)))) (by simp [numAttr])]
  have hpure : ∀ x : ESbA, (pure x : Except XErr ESbA) = .ok x := fun _ => rfl
  simp [esbStep, hu, u32Val_num, h2, h3, h4, checkAttr_some, ok_bind, num_key, hpure]

theorem parsePair_write (k1 k2 : String) (a b : Nat) (h1 : KeyOk k1.toList) (h2 : KeyOk k2.toList) (hk : k1 ≠ k2) (ha : a < 2 ^ 32)
    (hb : b < 2 ^ 32) : parsePair k1 k2 (attrText [numAttr k1 a, numAttr k2 b]) = .ok (a, b) := by
  unfold parsePair
  rw [attrs_text _ _ _ (nn h1 (nn h2 ok_nil)) (by simp [numAttr, hk])]
  have hpure : ∀ x : Option Nat × Option Nat, (pure x : Except XErr (Option Nat × Option Nat)) = .ok x := fun _ => rfl
  simp [pairStep, u32Val_num, ha, hb, checkAttr_some, ok_bind, num_key, hpure, hk.symm]

theorem parseBit_write (v : Bool) (b : Nat) (h : b < 2 ^ 32) :
    parseBit (attrText [numAttr "block" b, ⟨"value", showBool v⟩]) = .ok (if v then some (.blocks b 1) else none) := by
  have hb := boolVal_show "value" v
  unfold parseBit
  rw [attrs_text _ _ _ (nn (by decide) (ok_cons (a := ⟨"value", showBool v⟩) ⟨(by decide : KeyOk "value".toList), showBool_quote v⟩ ok_nil)) (by simp [numAttr])]
  have hpure : ∀ x : Option Nat × Option Bool, (pure x : Except XErr (Option Nat × Option Bool)) = .ok x := fun _ => rfl
  cases v <;> simp [bitStep, hb, u32Val_num, h, checkAttr_some, ok_bind, num_key, hpure]

theorem reads_false (l : List Nat) (h : ∀ b ∈ l, b < 2 ^ 32) {st : List String} {ts : List Tok} {es : List EEv}
    (hr : Reads eraStart eraClose eraEmpty st ts es) : Reads eraStart eraClose eraEmpty st (l.map (bitTok false) ++ ts) es := by
  induction l with
  | nil => exact hr
  | cons b l ih =>
    refine .skip ?_ (ih fun x hx => h x (by simp [hx]))
    simp only [eraEmpty, if_true, parseBit_write false b (h b (by simp))]; rfl

theorem reads_true (l : List Nat) (h : ∀ b ∈ l, b < 2 ^ 32) {st : List String} {ts : List Tok} {es : List EEv}
    (hr : Reads eraStart eraClose eraEmpty st ts es) :
    Reads eraStart eraClose eraEmpty st (l.map (bitTok true) ++ ts) (l.map (fun b => EEv.blocks b 1) ++ es) := by
  induction l with
  | nil => exact hr
  | cons b l ih =>
    refine .empty (e := .blocks b 1) ?_ (ih fun x hx => h x (by simp [hx]))
    simp only [eraEmpty, if_true, parseBit_write true b (h b (by simp))]

theorem span_lt {lo hi n : Nat} (h : hi ≤ n) : ∀ b ∈ span lo hi, b < n := by
  intro b hb
  obtain ⟨i, hi, rfl⟩ := List.mem_map.mp hb
  have := List.mem_range.mp hi
  omega

theorem era_reads (es : List EEv) : ∀ (w : EW) (st : List String), w.nrBlocks < 2 ^ 32 → (∀ e ∈ es, e.Ok) →
    Nested EEv.opens EEv.closes st es →
    Reads eraStart eraClose eraEmpty st (eraWriteAll w es) (es.flatMap (EEv.unroll w.compact)) := by
  induction es with
  | nil => intro w st _ _ _; exact .nil st
  | cons e es ih =>
    intro w st hw hok hn
    have he := hok e (by simp)
    have hes : ∀ x ∈ es, x.Ok := fun x hx => hok x (by simp [hx])
    simp only [eraWriteAll, List.flatMap_cons]
    cases e with
    | sbB sb =>
      refine .start (e := .sbB _) ?_ (ih { w with nrBlocks := sb.nrBlocks } _ he.2.2.1 hes hn)
      simp only [eraStart, if_true, parseESb_write sb he]; rfl
    | sbE => obtain ⟨st', rfl, hn⟩ := hn; exact .close rfl (ih _ _ hw hes hn)
    | wsB a b =>
      refine .start (e := .wsB _ _) ?_ (ih { w with emitted := 0 } _ hw hes hn)
      simp only [eraStart, if_true, parsePair_write "era" "nr_bits" a b (by decide) (by decide) (by decide) he.1 he.2]; rfl
    | wsE =>
      obtain ⟨st', rfl, hn⟩ := hn
      have : Reads eraStart eraClose eraEmpty ("writeset" :: st') (.close "writeset" :: eraWriteAll w es)
          (.wsE :: es.flatMap (EEv.unroll w.compact)) := .close rfl (ih w _ hw hes hn)
      simp only [eraWrite]
      rw [List.append_assoc]
      cases hc : w.compact with
      | true => rw [hc] at this; exact this
      | false => rw [hc] at this; exact reads_false _ (span_lt (Nat.le_of_lt hw)) this
    | blocks b len =>
      have he : b + len < 2 ^ 32 := he
      simp only [eraWrite, EEv.unroll]
      cases hc : w.compact with
      | true =>
        have := ih w _ hw hes hn
        rw [hc] at this
        refine .empty (e := .blocks b len) ?_ this
        simp only [eraEmpty, if_true, parsePair_write "block_begin" "len" b len (by decide) (by decide) (by decide)
          (by omega) (by omega)]; rfl
      | false =>
        have := ih { w with emitted := (b + len) % 2 ^ 32 } _ hw hes hn
        simp only [Bool.false_eq_true, if_false]
        rw [List.append_assoc]
        refine reads_false _ (span_lt (by omega)) ?_
        rw [Nat.mod_eq_of_lt he] at this ⊢
        have h2 := reads_true (span b (b + len)) (span_lt (by omega)) this
        have e2 : (span b (b + len)).map (fun b => EEv.blocks b 1) = (List.range len).map fun i => .blocks (b + i) 1 := by
          unfold span; rw [List.map_map, Nat.add_sub_cancel_left]; rfl
        rw [e2] at h2
        simp only [hc] at h2 ⊢
        exact h2
    | eraB => exact .start rfl (ih _ _ hw hes hn)
    | eraE => obtain ⟨st', rfl, hn⟩ := hn; exact .close rfl (ih _ _ hw hes hn)
    | era a b =>
      refine .empty (e := .era a b) ?_ (ih _ _ hw hes hn)
      simp only [eraEmpty, if_true, parsePair_write "block" "era" a b (by decide) (by decide) (by decide) he.1 he.2]; rfl
    | eof => exact absurd he id

/-- **C55** (era): reading the document that was written has the effect of calling the visitor with the events; unless the document
is compact, the blocks of a run of marked blocks come one by one -/
theorem era_roundtrip {σ : Type} (compact : Bool) (v : Visitor EEv σ) (s : σ) (es : List EEv) (hok : ∀ e ∈ es, e.Ok)
    (hn : Nested EEv.opens EEv.closes [] es) :
    eraRead v s (eraWriteAll (EW.new compact) es) = feed .eof v s (es.flatMap (EEv.unroll compact)) :=
  read_feed _ _ (era_reads es (EW.new compact) [] (by show 0 < 2 ^ 32; decide) hok hn) s


/-! ## Nothing is made up: what a reader accepts is in the document -/

/-- the tag says `key="…"` with this raw value -/
def Says (text : Str) (key : String) (val : Str) : Prop := some ⟨key, val⟩ ∈ scan .skip text

/-- the tag gives a number of at most `bits` bits -/
def SaysNum (bits : Nat) (text : Str) (key : String) (n : Nat) : Prop := ∃ val, Says text key val ∧ NumString val n ∧ n < 2 ^ bits

/-- the tag gives a string -/
def SaysStr (text : Str) (key : String) (s : Str) : Prop := ∃ val, Says text key val ∧ unescape none val = some s

/-- the tag gives a Boolean -/
def SaysBool (text : Str) (key : String) (b : Bool) : Prop := Says text key (showBool b)

/-- the attributes of the tag are well-formed, have different keys, and the keys are among these -/
def Keys (text : Str) (keys : List String) : Prop :=
  ∃ as : List Attr, scan .skip text = as.map some ∧ (as.map (·.key)).Nodup ∧ ∀ a ∈ as, a.key ∈ keys

theorem bind_ok {α β : Type} {x : Except XErr α} {f : α → Except XErr β} {b : β} (h : (x >>= f) = .ok b) :
    ∃ a, x = .ok a ∧ f a = .ok b := by
  cases x with
  | error e => cases h
  | ok a => exact ⟨a, rfl, h⟩

theorem attrs_ok {σ : Type} {step : σ → Attr → Except XErr σ} {s x : σ} {text : Str} (h : attrs step s text = .ok x) :
    ∃ as : List Attr, scan .skip text = as.map some ∧ (as.map (·.key)).Nodup ∧ as.foldlM step s = .ok x := by
  unfold attrs at h
  have : ∀ (l : List (Option Attr)) (seen : List String) (s : σ), foldAttrs step seen s l = .ok x →
      ∃ as : List Attr, l = as.map some ∧ (as.map (·.key)).Nodup ∧ (∀ a ∈ as, a.key ∉ seen) ∧ as.foldlM step s = .ok x := by
    intro l
    induction l with
    | nil => intro seen s h; exact ⟨[], rfl, by simp, by simp, h⟩
    | cons o l ih =>
      intro seen s h
      cases o with
      | none => cases h
      | some a =>
        rw [foldAttrs] at h
        by_cases ha : a.key ∈ seen
        · rw [if_pos ha] at h; cases h
        · rw [if_neg ha] at h
          cases hs : step s a with
          | error e => rw [hs] at h; cases h
          | ok s' =>
            rw [hs] at h
            obtain ⟨as, h1, h2, h3, h4⟩ := ih _ _ h
            refine ⟨a :: as, by rw [h1]; rfl, ?_, ?_, ?_⟩
            · rw [List.map_cons, List.nodup_cons]
              refine ⟨fun hm => ?_, h2⟩
              obtain ⟨b, hb, he⟩ := List.mem_map.mp hm
              exact h3 b hb (by rw [he]; simp)
            · intro b hb
              rcases List.mem_cons.mp hb with rfl | hb
              · exact ha
              · exact fun hm => h3 b hb (List.mem_cons_of_mem _ hm)
            · rw [List.foldlM_cons, hs]; exact h4
  obtain ⟨as, h1, h2, -, h4⟩ := this _ _ _ h
  exact ⟨as, h1, h2, h4⟩

/-- a field that only the attribute `k` sets has, at the end, a value of such an attribute -/
theorem fold_field {σ α : Type} {step : σ → Attr → Except XErr σ} (get : σ → Option α) (k : String) (P : Str → α → Prop)
    (hstep : ∀ s a s', step s a = .ok s' → get s' = get s ∨ (a.key = k ∧ ∃ v, get s' = some v ∧ P a.val v)) :
    ∀ (as : List Attr) (s x : σ), as.foldlM step s = .ok x → ∀ v, get x = some v → get s = some v ∨ ∃ a ∈ as, a.key = k ∧ P a.val v := by
  intro as
  induction as with
  | nil => intro s x h v hv; cases h; exact .inl hv
  | cons a as ih =>
    intro s x h v hv
    rw [List.foldlM_cons] at h
    obtain ⟨s', h1, h2⟩ := bind_ok h
    rcases ih _ _ h2 v hv with h3 | ⟨b, hb, h3⟩
    · rcases hstep _ _ _ h1 with h4 | ⟨h4, w, h5, h6⟩
      · exact .inl (by rw [← h4]; exact h3)
      · rw [h5, Option.some.injEq] at h3
        subst h3
        exact .inr ⟨a, by simp, h4, h6⟩
    · exact .inr ⟨b, by simp [hb], h3⟩

theorem fold_keys {σ : Type} {step : σ → Attr → Except XErr σ} (keys : List String)
    (hstep : ∀ s a s', step s a = .ok s' → a.key ∈ keys) :
    ∀ (as : List Attr) (s x : σ), as.foldlM step s = .ok x → ∀ a ∈ as, a.key ∈ keys := by
  intro as
  induction as with
  | nil => intro s x _ a ha; cases ha
  | cons b as ih =>
    intro s x h a ha
    rw [List.foldlM_cons] at h
    obtain ⟨s', h1, h2⟩ := bind_ok h
    rcases List.mem_cons.mp ha with rfl | ha
    · exact hstep _ _ _ h1
    · exact ih _ _ h2 a ha

theorem u64Val_ok {a : Attr} {n : Nat} (h : u64Val a = .ok n) : NumString a.val n ∧ n < 2 ^ 64 := by
  unfold u64Val orErr at h
  cases hp : parseU64 a.val with
  | none => rw [hp] at h; cases h
  | some m =>
    rw [hp] at h; cases h
    have := (parseU64_iff _ _).mp hp
    refine ⟨this, ?_⟩
    obtain ⟨ds, -, -, -, h1, h2⟩ := this
    omega

theorem u32Val_ok {a : Attr} {n : Nat} (h : u32Val a = .ok n) : NumString a.val n ∧ n < 2 ^ 32 := by
  unfold u32Val orErr at h
  cases hp : parseU64 a.val with
  | none => rw [hp] at h; cases h
  | some m =>
    rw [hp, Option.filter_some] at h
    by_cases hm : m < 2 ^ 32
    · rw [decide_eq_true hm] at h; cases h
      exact ⟨(parseU64_iff _ _).mp hp, hm⟩
    · rw [decide_eq_false hm] at h; cases h

theorem stringVal_ok {a : Attr} {s : Str} (h : stringVal a = .ok s) : unescape none a.val = some s := by
  unfold stringVal orErr at h
  cases hp : unescape none a.val with
  | none => rw [hp] at h; cases h
  | some m => rw [hp] at h; cases h; rfl

theorem boolVal_ok {a : Attr} {b : Bool} (h : boolVal a = .ok b) : a.val = showBool b := by
  unfold boolVal at h
  by_cases h1 : a.val = ['t', 'r', 'u', 'e']
  · rw [if_pos h1] at h; cases h; exact h1
  · rw [if_neg h1] at h
    by_cases h2 : a.val = ['f', 'a', 'l', 's', 'e']
    · rw [if_pos h2] at h; cases h; exact h2
    · rw [if_neg h2] at h; cases h

theorem checkAttr_ok {α : Type} {o : Option α} {a : α} (h : checkAttr o = .ok a) : o = some a := by
  cases o with
  | none => cases h
  | some b => cases h; rfl


/-- the cases of the `match` of a parser: the attribute `k` sets the field, the others leave it -/
macro "fields" : tactic => `(tactic| (
  intro s a s' h
  repeat' split at h
  all_goals first
    | (exfalso; cases h; done)
    | (obtain ⟨v, hv, h⟩ := bind_ok h
       cases h
       first
         | exact Or.inl rfl
         | exact Or.inr ⟨by assumption, v, rfl, u64Val_ok hv⟩
         | exact Or.inr ⟨by assumption, v, rfl, u32Val_ok hv⟩
         | exact Or.inr ⟨by assumption, v, rfl, stringVal_ok hv⟩
         | exact Or.inr ⟨by assumption, v, rfl, boolVal_ok hv⟩)))

/-- … and there are no other attributes -/
macro "keycases" : tactic => `(tactic| (
  intro s a s' h
  repeat' split at h
  all_goals first
    | (exfalso; cases h; done)
    | simp_all))

theorem found {α : Type} {as : List Attr} {text : Str} {k : String} {P : Str → α → Prop} {v : α} (hs : scan .skip text = as.map some)
    (h : (none : Option α) = some v ∨ ∃ a ∈ as, a.key = k ∧ P a.val v) : ∃ val, Says text k val ∧ P val v := by
  rcases h with h | ⟨a, ha, h1, h2⟩
  · cases h
  · refine ⟨a.val, ?_, h2⟩
    unfold Says
    rw [hs, List.mem_map]
    exact ⟨a, ha, by subst h1; rfl⟩

set_option maxHeartbeats 1000000 in
/-- everything that `parseTSb` gives is in the tag -/
theorem parseTSb_sound {t : Str} {m : TSb} (h : parseTSb t = .ok m) :
    Keys t ["uuid", "time", "transaction", "data_block_size", "nr_data_blocks", "flags", "version", "metadata_snap"] ∧ SaysStr t "uuid" m.uuid ∧ SaysNum 32 t "time" m.time ∧ SaysNum 64 t "transaction" m.transaction ∧ SaysNum 32 t "data_block_size" m.blockSize ∧ SaysNum 64 t "nr_data_blocks" m.nrData ∧ (∀ n, m.flags = some n → SaysNum 32 t "flags" n) ∧ (∀ n, m.version = some n → SaysNum 32 t "version" n) ∧ (∀ n, m.snap = some n → SaysNum 64 t "metadata_snap" n) := by
  unfold parseTSb at h
  obtain ⟨x, h0, h⟩ := bind_ok h
  obtain ⟨as, hs, hn, hf⟩ := attrs_ok h0
  obtain ⟨_, g0, h⟩ := bind_ok h
  have g0 := checkAttr_ok g0
  obtain ⟨_, g1, h⟩ := bind_ok h
  have g1 := checkAttr_ok g1
  obtain ⟨_, g2, h⟩ := bind_ok h
  have g2 := checkAttr_ok g2
  obtain ⟨_, g3, h⟩ := bind_ok h
  have g3 := checkAttr_ok g3
  obtain ⟨_, g4, h⟩ := bind_ok h
  have g4 := checkAttr_ok g4
  cases h
  refine ⟨⟨as, hs, hn, fold_keys _ (by unfold tsbStep; keycases) _ _ _ hf⟩, found (P := (fun s n => unescape none s = some n)) hs (fold_field (fun x : TSbA => x.uuid) "uuid" (fun s n => unescape none s = some n) (by unfold tsbStep; fields) _ _ _ hf _ g0),
    found (P := (fun s n => NumString s n ∧ n < 2 ^ 32)) hs (fold_field (fun x : TSbA => x.time) "time" (fun s n => NumString s n ∧ n < 2 ^ 32) (by unfold tsbStep; fields) _ _ _ hf _ g1),
    found (P := (fun s n => NumString s n ∧ n < 2 ^ 64)) hs (fold_field (fun x : TSbA => x.transaction) "transaction" (fun s n => NumString s n ∧ n < 2 ^ 64) (by unfold tsbStep; fields) _ _ _ hf _ g2),
    found (P := (fun s n => NumString s n ∧ n < 2 ^ 32)) hs (fold_field (fun x : TSbA => x.blockSize) "data_block_size" (fun s n => NumString s n ∧ n < 2 ^ 32) (by unfold tsbStep; fields) _ _ _ hf _ g3),
    found (P := (fun s n => NumString s n ∧ n < 2 ^ 64)) hs (fold_field (fun x : TSbA => x.nrData) "nr_data_blocks" (fun s n => NumString s n ∧ n < 2 ^ 64) (by unfold tsbStep; fields) _ _ _ hf _ g4),
    fun n e => found (P := (fun s n => NumString s n ∧ n < 2 ^ 32)) hs (fold_field (fun x : TSbA => x.flags) "flags" (fun s n => NumString s n ∧ n < 2 ^ 32) (by unfold tsbStep; fields) _ _ _ hf _ e),
    fun n e => found (P := (fun s n => NumString s n ∧ n < 2 ^ 32)) hs (fold_field (fun x : TSbA => x.version) "version" (fun s n => NumString s n ∧ n < 2 ^ 32) (by unfold tsbStep; fields) _ _ _ hf _ e),
    fun n e => found (P := (fun s n => NumString s n ∧ n < 2 ^ 64)) hs (fold_field (fun x : TSbA => x.snap) "metadata_snap" (fun s n => NumString s n ∧ n < 2 ^ 64) (by unfold tsbStep; fields) _ _ _ hf _ e)⟩

/-- everything that `parseTDev` gives is in the tag -/
theorem parseTDev_sound {t : Str} {m : TDev} (h : parseTDev t = .ok m) :
    Keys t ["dev_id", "mapped_blocks", "transaction", "creation_time", "snap_time"] ∧ SaysNum 32 t "dev_id" m.id ∧ SaysNum 64 t "mapped_blocks" m.mapped ∧ SaysNum 64 t "transaction" m.transaction ∧ SaysNum 32 t "creation_time" m.creation ∧ SaysNum 32 t "snap_time" m.snapTime := by
  unfold parseTDev at h
  obtain ⟨x, h0, h⟩ := bind_ok h
  obtain ⟨as, hs, hn, hf⟩ := attrs_ok h0
  obtain ⟨_, g0, h⟩ := bind_ok h
  have g0 := checkAttr_ok g0
  obtain ⟨_, g1, h⟩ := bind_ok h
  have g1 := checkAttr_ok g1
  obtain ⟨_, g2, h⟩ := bind_ok h
  have g2 := checkAttr_ok g2
  obtain ⟨_, g3, h⟩ := bind_ok h
  have g3 := checkAttr_ok g3
  obtain ⟨_, g4, h⟩ := bind_ok h
  have g4 := checkAttr_ok g4
  cases h
  refine ⟨⟨as, hs, hn, fold_keys _ (by unfold tdevStep; keycases) _ _ _ hf⟩, found (P := (fun s n => NumString s n ∧ n < 2 ^ 32)) hs (fold_field (fun x : TDevA => x.id) "dev_id" (fun s n => NumString s n ∧ n < 2 ^ 32) (by unfold tdevStep; fields) _ _ _ hf _ g0),
    found (P := (fun s n => NumString s n ∧ n < 2 ^ 64)) hs (fold_field (fun x : TDevA => x.mapped) "mapped_blocks" (fun s n => NumString s n ∧ n < 2 ^ 64) (by unfold tdevStep; fields) _ _ _ hf _ g1),
    found (P := (fun s n => NumString s n ∧ n < 2 ^ 64)) hs (fold_field (fun x : TDevA => x.transaction) "transaction" (fun s n => NumString s n ∧ n < 2 ^ 64) (by unfold tdevStep; fields) _ _ _ hf _ g2),
    found (P := (fun s n => NumString s n ∧ n < 2 ^ 32)) hs (fold_field (fun x : TDevA => x.creation) "creation_time" (fun s n => NumString s n ∧ n < 2 ^ 32) (by unfold tdevStep; fields) _ _ _ hf _ g3),
    found (P := (fun s n => NumString s n ∧ n < 2 ^ 32)) hs (fold_field (fun x : TDevA => x.snapTime) "snap_time" (fun s n => NumString s n ∧ n < 2 ^ 32) (by unfold tdevStep; fields) _ _ _ hf _ g4)⟩

/-- everything that `parseSingle` gives is in the tag -/
theorem parseSingle_sound {t : Str} {m : TMap} (h : parseSingle t = .ok m) :
    Keys t ["origin_block", "data_block", "time"] ∧ SaysNum 64 t "origin_block" m.thin ∧ SaysNum 64 t "data_block" m.data ∧ SaysNum 32 t "time" m.time ∧ m.len = 1 := by
  unfold parseSingle at h
  obtain ⟨x, h0, h⟩ := bind_ok h
  obtain ⟨as, hs, hn, hf⟩ := attrs_ok h0
  obtain ⟨_, g0, h⟩ := bind_ok h
  have g0 := checkAttr_ok g0
  obtain ⟨_, g1, h⟩ := bind_ok h
  have g1 := checkAttr_ok g1
  obtain ⟨_, g2, h⟩ := bind_ok h
  have g2 := checkAttr_ok g2
  cases h
  refine ⟨⟨as, hs, hn, fold_keys _ (by unfold singleStep; keycases) _ _ _ hf⟩, found (P := (fun s n => NumString s n ∧ n < 2 ^ 64)) hs (fold_field (fun x : TMapA => x.thin) "origin_block" (fun s n => NumString s n ∧ n < 2 ^ 64) (by unfold singleStep; fields) _ _ _ hf _ g0),
    found (P := (fun s n => NumString s n ∧ n < 2 ^ 64)) hs (fold_field (fun x : TMapA => x.data) "data_block" (fun s n => NumString s n ∧ n < 2 ^ 64) (by unfold singleStep; fields) _ _ _ hf _ g1),
    found (P := (fun s n => NumString s n ∧ n < 2 ^ 32)) hs (fold_field (fun x : TMapA => x.time) "time" (fun s n => NumString s n ∧ n < 2 ^ 32) (by unfold singleStep; fields) _ _ _ hf _ g2),
    rfl⟩

/-- everything that `parseRangeMap` gives is in the tag -/
theorem parseRangeMap_sound {t : Str} {m : TMap} (h : parseRangeMap t = .ok m) :
    Keys t ["origin_begin", "data_begin", "time", "length"] ∧ SaysNum 64 t "origin_begin" m.thin ∧ SaysNum 64 t "data_begin" m.data ∧ SaysNum 32 t "time" m.time ∧ SaysNum 64 t "length" m.len := by
  unfold parseRangeMap at h
  obtain ⟨x, h0, h⟩ := bind_ok h
  obtain ⟨as, hs, hn, hf⟩ := attrs_ok h0
  obtain ⟨_, g0, h⟩ := bind_ok h
  have g0 := checkAttr_ok g0
  obtain ⟨_, g1, h⟩ := bind_ok h
  have g1 := checkAttr_ok g1
  obtain ⟨_, g2, h⟩ := bind_ok h
  have g2 := checkAttr_ok g2
  obtain ⟨_, g3, h⟩ := bind_ok h
  have g3 := checkAttr_ok g3
  cases h
  refine ⟨⟨as, hs, hn, fold_keys _ (by unfold rangeStep; keycases) _ _ _ hf⟩, found (P := (fun s n => NumString s n ∧ n < 2 ^ 64)) hs (fold_field (fun x : TMapA => x.thin) "origin_begin" (fun s n => NumString s n ∧ n < 2 ^ 64) (by unfold rangeStep; fields) _ _ _ hf _ g0),
    found (P := (fun s n => NumString s n ∧ n < 2 ^ 64)) hs (fold_field (fun x : TMapA => x.data) "data_begin" (fun s n => NumString s n ∧ n < 2 ^ 64) (by unfold rangeStep; fields) _ _ _ hf _ g1),
    found (P := (fun s n => NumString s n ∧ n < 2 ^ 32)) hs (fold_field (fun x : TMapA => x.time) "time" (fun s n => NumString s n ∧ n < 2 ^ 32) (by unfold rangeStep; fields) _ _ _ hf _ g2),
    found (P := (fun s n => NumString s n ∧ n < 2 ^ 64)) hs (fold_field (fun x : TMapA => x.len) "length" (fun s n => NumString s n ∧ n < 2 ^ 64) (by unfold rangeStep; fields) _ _ _ hf _ g3)⟩

/-- everything that `parseCSb` gives is in the tag -/
theorem parseCSb_sound {t : Str} {m : CSb} (h : parseCSb t = .ok m) :
    Keys t ["uuid", "block_size", "nr_cache_blocks", "policy", "hint_width"] ∧ SaysStr t "uuid" m.uuid ∧ SaysNum 32 t "block_size" m.blockSize ∧ SaysNum 32 t "nr_cache_blocks" m.nrCache ∧ SaysStr t "policy" m.policy ∧ SaysNum 32 t "hint_width" m.hintWidth := by
  unfold parseCSb at h
  obtain ⟨x, h0, h⟩ := bind_ok h
  obtain ⟨as, hs, hn, hf⟩ := attrs_ok h0
  obtain ⟨_, g0, h⟩ := bind_ok h
  have g0 := checkAttr_ok g0
  obtain ⟨_, g1, h⟩ := bind_ok h
  have g1 := checkAttr_ok g1
  obtain ⟨_, g2, h⟩ := bind_ok h
  have g2 := checkAttr_ok g2
  obtain ⟨_, g3, h⟩ := bind_ok h
  have g3 := checkAttr_ok g3
  obtain ⟨_, g4, h⟩ := bind_ok h
  have g4 := checkAttr_ok g4
  cases h
  refine ⟨⟨as, hs, hn, fold_keys _ (by unfold csbStep; keycases) _ _ _ hf⟩, found (P := (fun s n => unescape none s = some n)) hs (fold_field (fun x : CSbA => x.uuid) "uuid" (fun s n => unescape none s = some n) (by unfold csbStep; fields) _ _ _ hf _ g0),
    found (P := (fun s n => NumString s n ∧ n < 2 ^ 32)) hs (fold_field (fun x : CSbA => x.blockSize) "block_size" (fun s n => NumString s n ∧ n < 2 ^ 32) (by unfold csbStep; fields) _ _ _ hf _ g1),
    found (P := (fun s n => NumString s n ∧ n < 2 ^ 32)) hs (fold_field (fun x : CSbA => x.nrCache) "nr_cache_blocks" (fun s n => NumString s n ∧ n < 2 ^ 32) (by unfold csbStep; fields) _ _ _ hf _ g2),
    found (P := (fun s n => unescape none s = some n)) hs (fold_field (fun x : CSbA => x.policy) "policy" (fun s n => unescape none s = some n) (by unfold csbStep; fields) _ _ _ hf _ g3),
    found (P := (fun s n => NumString s n ∧ n < 2 ^ 32)) hs (fold_field (fun x : CSbA => x.hintWidth) "hint_width" (fun s n => NumString s n ∧ n < 2 ^ 32) (by unfold csbStep; fields) _ _ _ hf _ g4)⟩

/-- everything that `parseESb` gives is in the tag -/
theorem parseESb_sound {t : Str} {m : ESb} (h : parseESb t = .ok m) :
    Keys t ["uuid", "block_size", "nr_blocks", "current_era"] ∧ SaysStr t "uuid" m.uuid ∧ SaysNum 32 t "block_size" m.blockSize ∧ SaysNum 32 t "nr_blocks" m.nrBlocks ∧ SaysNum 32 t "current_era" m.currentEra := by
  unfold parseESb at h
  obtain ⟨x, h0, h⟩ := bind_ok h
  obtain ⟨as, hs, hn, hf⟩ := attrs_ok h0
  obtain ⟨_, g0, h⟩ := bind_ok h
  have g0 := checkAttr_ok g0
  obtain ⟨_, g1, h⟩ := bind_ok h
  have g1 := checkAttr_ok g1
  obtain ⟨_, g2, h⟩ := bind_ok h
  have g2 := checkAttr_ok g2
  obtain ⟨_, g3, h⟩ := bind_ok h
  have g3 := checkAttr_ok g3
  cases h
  refine ⟨⟨as, hs, hn, fold_keys _ (by unfold esbStep; keycases) _ _ _ hf⟩, found (P := (fun s n => unescape none s = some n)) hs (fold_field (fun x : ESbA => x.uuid) "uuid" (fun s n => unescape none s = some n) (by unfold esbStep; fields) _ _ _ hf _ g0),
    found (P := (fun s n => NumString s n ∧ n < 2 ^ 32)) hs (fold_field (fun x : ESbA => x.blockSize) "block_size" (fun s n => NumString s n ∧ n < 2 ^ 32) (by unfold esbStep; fields) _ _ _ hf _ g1),
    found (P := (fun s n => NumString s n ∧ n < 2 ^ 32)) hs (fold_field (fun x : ESbA => x.nrBlocks) "nr_blocks" (fun s n => NumString s n ∧ n < 2 ^ 32) (by unfold esbStep; fields) _ _ _ hf _ g2),
    found (P := (fun s n => NumString s n ∧ n < 2 ^ 32)) hs (fold_field (fun x : ESbA => x.currentEra) "current_era" (fun s n => NumString s n ∧ n < 2 ^ 32) (by unfold esbStep; fields) _ _ _ hf _ g3)⟩

/-- everything that `parseDef` gives is in the tag -/
theorem parseDef_sound {t : Str} {m : Str} (h : parseDef t = .ok m) : Keys t ["name"] ∧ SaysStr t "name" m := by
  unfold parseDef at h
  obtain ⟨x, h0, h⟩ := bind_ok h
  obtain ⟨as, hs, hn, hf⟩ := attrs_ok h0
  cases x with
  | none => cases h
  | some n =>
    cases h
    exact ⟨⟨as, hs, hn, fold_keys _ (by unfold defStep; keycases) _ _ _ hf⟩,
      found (P := fun s n => unescape none s = some n) hs (fold_field (fun x : Option Str => x) "name" (fun s n => unescape none s = some n)
        (by unfold defStep; fields) _ _ _ hf _ rfl)⟩

/-- everything that `parseCMap` gives is in the tag -/
theorem parseCMap_sound {t : Str} {e : CEv} (h : parseCMap t = .ok e) : ∃ c o d, e = .mapping c o d ∧
    Keys t ["cache_block", "origin_block", "dirty"] ∧ SaysNum 32 t "cache_block" c ∧ SaysNum 64 t "origin_block" o ∧
    SaysBool t "dirty" d := by
  unfold parseCMap at h
  obtain ⟨x, h0, h⟩ := bind_ok h
  obtain ⟨as, hs, hn, hf⟩ := attrs_ok h0
  obtain ⟨c, g0, h⟩ := bind_ok h
  have g0 := checkAttr_ok g0
  obtain ⟨o, g1, h⟩ := bind_ok h
  have g1 := checkAttr_ok g1
  obtain ⟨d, g2, h⟩ := bind_ok h
  have g2 := checkAttr_ok g2
  cases h
  have hb := found (P := fun s b => s = showBool b) hs (fold_field (fun x : CMapA => x.dirty) "dirty" (fun s b => s = showBool b)
    (by unfold cmapStep; fields) _ _ _ hf _ g2)
  obtain ⟨val, hb, rfl⟩ := hb
  exact ⟨c, o, d, rfl, ⟨as, hs, hn, fold_keys _ (by unfold cmapStep; keycases) _ _ _ hf⟩,
    found (P := fun s n => NumString s n ∧ n < 2 ^ 32) hs (fold_field (fun x : CMapA => x.cblock) "cache_block"
      (fun s n => NumString s n ∧ n < 2 ^ 32) (by unfold cmapStep; fields) _ _ _ hf _ g0),
    found (P := fun s n => NumString s n ∧ n < 2 ^ 64) hs (fold_field (fun x : CMapA => x.oblock) "origin_block"
      (fun s n => NumString s n ∧ n < 2 ^ 64) (by unfold cmapStep; fields) _ _ _ hf _ g1), hb⟩

theorem decode_ok {a : Attr} {v : Bytes} (h : orErr (NPath.decode64 a.val) = .ok v) : NPath.decode64 a.val = some v := by
  unfold orErr at h
  cases hp : NPath.decode64 a.val with
  | none => rw [hp] at h; cases h
  | some m => rw [hp] at h; cases h; rfl

/-- everything that `parseCHint` gives is in the tag -/
theorem parseCHint_sound {t : Str} {e : CEv} (h : parseCHint t = .ok e) : ∃ c d, e = .hint c d ∧
    Keys t ["cache_block", "data"] ∧ SaysNum 32 t "cache_block" c ∧ ∃ val, Says t "data" val ∧ NPath.decode64 val = some d := by
  unfold parseCHint at h
  obtain ⟨x, h0, h⟩ := bind_ok h
  obtain ⟨as, hs, hn, hf⟩ := attrs_ok h0
  obtain ⟨c, g0, h⟩ := bind_ok h
  have g0 := checkAttr_ok g0
  obtain ⟨d, g1, h⟩ := bind_ok h
  have g1 := checkAttr_ok g1
  cases h
  refine ⟨c, d, rfl, ⟨as, hs, hn, fold_keys _ (by unfold chintStep; keycases) _ _ _ hf⟩,
    found (P := fun s n => NumString s n ∧ n < 2 ^ 32) hs (fold_field (fun x : Option Nat × Option Bytes => x.1) "cache_block"
      (fun s n => NumString s n ∧ n < 2 ^ 32) (by unfold chintStep; fields) _ _ _ hf _ g0),
    found (P := fun s n => NPath.decode64 s = some n) hs (fold_field (fun x : Option Nat × Option Bytes => x.2) "data"
      (fun s n => NPath.decode64 s = some n) ?_ _ _ _ hf _ g1)⟩
  intro s a s' h
  unfold chintStep at h
  split at h
  · obtain ⟨v, hv, h⟩ := bind_ok h
    cases h; exact .inl rfl
  · split at h
    · obtain ⟨v, hv, h⟩ := bind_ok h
      cases h; exact .inr ⟨by assumption, v, rfl, decode_ok hv⟩
    · cases h

/-- everything that `parsePair` gives is in the tag -/
theorem parsePair_sound {k1 k2 : String} {t : Str} {p : Nat × Nat} (h : parsePair k1 k2 t = .ok p) :
    Keys t [k1, k2] ∧ SaysNum 32 t k1 p.1 ∧ SaysNum 32 t k2 p.2 := by
  unfold parsePair at h
  obtain ⟨x, h0, h⟩ := bind_ok h
  obtain ⟨as, hs, hn, hf⟩ := attrs_ok h0
  obtain ⟨c, g0, h⟩ := bind_ok h
  have g0 := checkAttr_ok g0
  obtain ⟨d, g1, h⟩ := bind_ok h
  have g1 := checkAttr_ok g1
  cases h
  exact ⟨⟨as, hs, hn, fold_keys _ (by unfold pairStep; keycases) _ _ _ hf⟩,
    found (P := fun s n => NumString s n ∧ n < 2 ^ 32) hs (fold_field (fun x : Option Nat × Option Nat => x.1) k1
      (fun s n => NumString s n ∧ n < 2 ^ 32) (by unfold pairStep; fields) _ _ _ hf _ g0),
    found (P := fun s n => NumString s n ∧ n < 2 ^ 32) hs (fold_field (fun x : Option Nat × Option Nat => x.2) k2
      (fun s n => NumString s n ∧ n < 2 ^ 32) (by unfold pairStep; fields) _ _ _ hf _ g1)⟩

/-- everything that `parseBit` gives is in the tag -/
theorem parseBit_sound {t : Str} {o : Option EEv} (h : parseBit t = .ok o) : ∃ b v, o = (if v = true then some (EEv.blocks b 1) else none) ∧
    Keys t ["block", "value"] ∧ SaysNum 32 t "block" b ∧ SaysBool t "value" v := by
  unfold parseBit at h
  obtain ⟨x, h0, h⟩ := bind_ok h
  obtain ⟨as, hs, hn, hf⟩ := attrs_ok h0
  obtain ⟨b, g0, h⟩ := bind_ok h
  have g0 := checkAttr_ok g0
  obtain ⟨v, g1, h⟩ := bind_ok h
  have g1 := checkAttr_ok g1
  have hb := found (P := fun s b => s = showBool b) hs (fold_field (fun x : Option Nat × Option Bool => x.2) "value"
    (fun s b => s = showBool b) (by unfold bitStep; fields) _ _ _ hf _ g1)
  obtain ⟨val, hb, rfl⟩ := hb
  refine ⟨b, v, ?_, ⟨as, hs, hn, fold_keys _ (by unfold bitStep; keycases) _ _ _ hf⟩,
    found (P := fun s n => NumString s n ∧ n < 2 ^ 32) hs (fold_field (fun x : Option Nat × Option Bool => x.1) "block"
      (fun s n => NumString s n ∧ n < 2 ^ 32) (by unfold bitStep; fields) _ _ _ hf _ g0), hb⟩
  cases v <;> (cases h; rfl)

/-! ## Numbers that do not fit are errors -/

/-- the types of the fields (`u32`, `u64`) -/
def TEv.Typed : TEv → Prop
  | .sbB sb => sb.time < 2 ^ 32 ∧ sb.transaction < 2 ^ 64 ∧ (∀ f ∈ sb.flags, f < 2 ^ 32) ∧
      (∀ f ∈ sb.version, f < 2 ^ 32) ∧ sb.blockSize < 2 ^ 32 ∧ sb.nrData < 2 ^ 64 ∧ (∀ f ∈ sb.snap, f < 2 ^ 64)
  | .devB d => d.id < 2 ^ 32 ∧ d.mapped < 2 ^ 64 ∧ d.transaction < 2 ^ 64 ∧ d.creation < 2 ^ 32 ∧ d.snapTime < 2 ^ 32
  | .map m => m.thin < 2 ^ 64 ∧ m.data < 2 ^ 64 ∧ m.time < 2 ^ 32 ∧ m.len < 2 ^ 64
  | _ => True

theorem SaysNum.lt {bits : Nat} {t : Str} {k : String} {n : Nat} (h : SaysNum bits t k n) : n < 2 ^ bits := by
  obtain ⟨_, _, _, h⟩ := h; exact h

theorem thin_typed {st : List String} {ts : List Tok} {es : List TEv} (h : Reads thinStart thinClose thinEmpty st ts es) :
    ∀ e ∈ es, e.Typed := by
  induction h with
  | nil => intro e he; cases he
  | @start st n t ev ts es h1 _ ih =>
    intro e he
    rcases List.mem_cons.mp he with rfl | he
    · unfold thinStart at h1
      split at h1
      · obtain ⟨sb, h2, h3⟩ := bind_ok h1
        cases h3
        obtain ⟨_, _, g1, g2, g3, g4, g5, g6, g7⟩ := parseTSb_sound h2
        exact ⟨g1.lt, g2.lt, fun f hf => (g5 f hf).lt, fun f hf => (g6 f hf).lt, g3.lt, g4.lt, fun f hf => (g7 f hf).lt⟩
      · split at h1
        · obtain ⟨d, h2, h3⟩ := bind_ok h1
          cases h3
          obtain ⟨_, g1, g2, g3, g4, g5⟩ := parseTDev_sound h2
          exact ⟨g1.lt, g2.lt, g3.lt, g4.lt, g5.lt⟩
        · split at h1
          · obtain ⟨d, h2, h3⟩ := bind_ok h1
            cases h3; exact trivial
          · cases h1
    · exact ih e he
  | @close st n ev ts es h1 _ ih =>
    intro e he
    rcases List.mem_cons.mp he with rfl | he
    · unfold thinClose at h1
      split at h1
      · cases h1; exact trivial
      · split at h1
        · cases h1; exact trivial
        · split at h1
          · cases h1; exact trivial
          · cases h1
    · exact ih e he
  | @empty st n t ev ts es h1 _ ih =>
    intro e he
    rcases List.mem_cons.mp he with rfl | he
    · unfold thinEmpty at h1
      split at h1
      · obtain ⟨m, h2, h3⟩ := bind_ok h1
        cases h3
        obtain ⟨_, g1, g2, g3, g4⟩ := parseSingle_sound h2
        exact ⟨g1.lt, g2.lt, g3.lt, by show m.len < 2 ^ 64; omega⟩
      · split at h1
        · obtain ⟨m, h2, h3⟩ := bind_ok h1
          cases h3
          obtain ⟨_, g1, g2, g3, g4⟩ := parseRangeMap_sound h2
          exact ⟨g1.lt, g2.lt, g3.lt, g4.lt⟩
        · split at h1
          · obtain ⟨d, h2, h3⟩ := bind_ok h1
            cases h3; exact trivial
          · cases h1
    · exact ih e he
  | skip _ _ ih => exact ih
  | text _ ih => exact ih
  | comment _ ih => exact ih

/-- **C55**: whatever document is read, the visitor only gets numbers of their types: a number that does not fit is an error, it is
never truncated -/
theorem thin_accepted (doc : List Tok) (out : List TEv) (h : thinRead (recorder TEv) [] doc = .ok out) :
    ∃ es, out = es ++ [.eof] ∧ Reads thinStart thinClose thinEmpty [] doc es ∧ ∀ e ∈ es, e.Typed := by
  obtain ⟨es, h1, h2⟩ := (read_iff _ _ _ _ _ _ _ _).mp h
  exact ⟨es, by simpa using h2, h1, thin_typed h1⟩

/-! ## Where documents do not survive -/

/-- a uuid with an entity in it: the writer does not escape, the reader unescapes -/
def ampSb : TSb := ⟨['a', '&', 'a', 'm', 'p', ';'], 0, 0, none, some 2, 128, 10, none⟩

/-- Finding: strings are written without escaping (`mk_attr`, `src/xml.rs:58-69`), and unescaped when read: `a&amp;` becomes `a&` -/
theorem escape_refuted : thinStart "superblock" (attrText (tsbAttrs ampSb)) = .ok (.sbB { ampSb with uuid := ['a', '&'] }) := by
  have e : attrText (tsbAttrs ampSb) = attrText (⟨"uuid", ['a', '&', 'a', 'm', 'p', ';']⟩ ::
    (tsbAttrs { ampSb with uuid := ['a', '&'] }).tail) := rfl
  have hu : stringVal ⟨"uuid", ['a', '&', 'a', 'm', 'p', ';']⟩ = .ok ['a', '&'] := rfl
  have hpure : ∀ x : TSbA, (pure x : Except XErr TSbA) = .ok x := fun _ => rfl
  simp only [thinStart, if_true, parseTSb]
  rw [e, attrs_text _ _ _ (by
    refine ok_cons ⟨(by decide : KeyOk "uuid".toList), by decide⟩ ?_
    exact nn (by decide) (nn (by decide) (nn (by decide) (nn (by decide) (nn (by decide) ok_nil))))) (by
    simp [tsbAttrs, optAttr, numAttr, ampSb])]
  simp [tsbAttrs, optAttr, ampSb, tsbStep, hu, u32Val_num, u64Val_num, checkAttr_some, ok_bind, num_key, hpure]

/-- Finding: … and a quote in a string ends the attribute: reading the document panics -/
theorem quote_refuted : parseDef (attrText [⟨"name", ['"']⟩]) = .error .panic := by rfl

/-- Finding: a `def` or `ref` without name panics (`name.unwrap()`, `src/thin/xml.rs:172`), where other missing attributes are errors -/
theorem noname_panics : thinStart "def" [] = .error .panic ∧ thinEmpty "ref" [] = .error .panic ∧
    thinStart "device" [] = .error .err := by refine ⟨rfl, rfl, rfl⟩

/-- Finding: the cache writer has discards, which the reader does not know: such a document cannot be read -/
theorem discards_refuted {σ : Type} (v : Visitor CEv σ) (s : σ) (ts : List Tok) :
    cacheRead v s (cacheWrite .discardsB ++ ts) = .error .err := by rfl

/-! ## Documents that meet the hypotheses -/

/-- a pool with a shared part and a device -/
def demoT : List TEv :=
  [.sbB ⟨['a', '-', '1'], 5, 7, some 0, none, 128, 1000, none⟩, .defB ['0'], .map ⟨0, 3, 1, 1⟩, .defE,
   .devB ⟨4, 11, 7, 1, 2⟩, .ref ['0'], .map ⟨10, 20, 2, 10⟩, .devE, .sbE]

theorem demoT_ok : ∀ e ∈ demoT, e.Ok := by
  intro e he
  simp only [demoT, List.mem_cons, List.not_mem_nil, or_false] at he
  rcases he with rfl | rfl | rfl | rfl | rfl | rfl | rfl | rfl | rfl <;>
    simp [TEv.Ok, Plain]

theorem demoT_nested : Nested TEv.opens TEv.closes [] demoT :=
  ⟨_, rfl, ⟨_, rfl, ⟨_, rfl, trivial⟩⟩⟩

example : thinRead (recorder TEv) [] (demoT.flatMap thinWrite) = .ok (demoT.map TEv.versioned ++ [.eof]) := by
  rw [thin_roundtrip _ _ _ demoT_ok demoT_nested]
  rfl

/-- a cache -/
def demoC : List CEv :=
  [.sbB ⟨[], 128, 64, ['s', 'm', 'q'], 4⟩, .mappingsB, .mapping 3 1000 true, .mapping 4 7 false, .mappingsE, .hintsB,
   .hint 3 [1, 2, 3, 255], .hintsE, .sbE]

example : cacheRead (recorder CEv) [] (demoC.flatMap cacheWrite) = .ok (demoC ++ [.eof]) := by
  rw [cache_roundtrip _ _ demoC (by
    intro e he
    simp only [demoC, List.mem_cons, List.not_mem_nil, or_false] at he
    rcases he with rfl | rfl | rfl | rfl | rfl | rfl | rfl | rfl | rfl <;> simp [CEv.Ok, Plain])
    ⟨_, rfl, ⟨_, rfl, ⟨_, rfl, trivial⟩⟩⟩]
  rfl

/-- era metadata -/
def demoE : List EEv :=
  [.sbB ⟨[], 128, 8, 3⟩, .wsB 2 8, .blocks 1 2, .blocks 5 1, .wsE, .eraB, .era 0 1, .era 1 2, .eraE, .sbE]

example : eraRead (recorder EEv) [] (eraWriteAll (EW.new false) demoE) = .ok
    [.sbB ⟨[], 128, 8, 3⟩, .wsB 2 8, .blocks 1 1, .blocks 2 1, .blocks 5 1, .wsE, .eraB, .era 0 1, .era 1 2, .eraE, .sbE, .eof] := by
  rw [era_roundtrip false _ _ demoE (by
    intro e he
    simp only [demoE, List.mem_cons, List.not_mem_nil, or_false] at he
    rcases he with rfl | rfl | rfl | rfl | rfl | rfl | rfl | rfl | rfl | rfl <;> simp [EEv.Ok, Plain])
    ⟨_, rfl, ⟨_, rfl, ⟨_, rfl, trivial⟩⟩⟩]
  rfl

end Verif.Xml
