import Verif.Model.Human
import Verif.Prop.Units
import Verif.Prop.XmlRestore

/-!
# C79: the human readable dump loses nothing
-/

namespace Verif.Human

open Verif.Xml (Str TEv TSb TDev TMap)
open Verif.Units (showNat)

/-! ## Specification -/

/-- strings that stay on their line, and numbers that fit the program's types -/
def Printable : TEv → Prop
  | .sbB sb => '\n' ∉ sb.uuid
  | .defB name => '\n' ∉ name
  | .ref name => '\n' ∉ name
  | .map m => m.len < 2 ^ 64 ∧ m.thin < 2 ^ 64
  | _ => True

/-- The same information: absent flags are 0, an absent version is 2, and the end of a section is the end of the section
that is open, whichever kind it is. -/
def Same : TEv → TEv → Prop
  | .sbB a, .sbB b => a.uuid = b.uuid ∧ a.time = b.time ∧ a.transaction = b.transaction ∧ a.flags.getD 0 = b.flags.getD 0 ∧
      a.version.getD 2 = b.version.getD 2 ∧ a.blockSize = b.blockSize ∧ a.nrData = b.nrData ∧ a.snap = b.snap
  | .defE, .devE => True
  | .devE, .defE => True
  | a, b => a = b

/-- the same calls in the same order -/
def SameAll : List TEv → List TEv → Prop
  | [], [] => True
  | a :: l, b :: l' => Same a b ∧ SameAll l l'
  | _, _ => False

/-! ## Lemmas -/

theorem split_first {c : Char} : ∀ {a b r r' : Str}, c ∉ a → c ∉ b → a ++ c :: r = b ++ c :: r' → a = b ∧ r = r'
  | [], [], r, r', _, _, h => by simpa using h
  | [], y :: b, r, r', _, hb, h => by
    simp only [List.nil_append, List.cons_append, List.cons.injEq] at h
    exact absurd h.1 (fun e => hb (by simp [e]))
  | x :: a, [], r, r', ha, _, h => by
    simp only [List.nil_append, List.cons_append, List.cons.injEq] at h
    exact absurd h.1 (fun e => ha (by simp [e]))
  | x :: a, y :: b, r, r', ha, hb, h => by
    simp only [List.cons_append, List.cons.injEq] at h
    obtain ⟨e1, e2⟩ := split_first (fun m => ha (by simp [m])) (fun m => hb (by simp [m])) h.2
    exact ⟨by rw [h.1, e1], e2⟩

theorem split_last {c : Char} {a b t t' : Str} (ht : c ∉ t) (ht' : c ∉ t') (h : a ++ c :: t = b ++ c :: t') : a = b ∧ t = t' := by
  have h' := congrArg List.reverse h
  simp only [List.reverse_append, List.reverse_cons, List.append_assoc, List.singleton_append] at h'
  obtain ⟨e1, e2⟩ := split_first (by simpa using ht) (by simpa using ht') h'
  exact ⟨List.reverse_inj.mp e2, List.reverse_inj.mp e1⟩

theorem not_digit (n : Nat) (c : Char) (h : c = '\n' ∨ c = ',' ∨ c = '.' ∨ c = ')' ∨ c = '"') : c ∉ showNat n := by
  intro hc
  have := (Units.showNat_spec n).1 c hc
  rcases h with rfl | rfl | rfl | rfl | rfl <;> exact absurd this (by decide)

/-- a number ends at the next character that is not a digit -/
theorem num_next {c : Char} (hc : c = '\n' ∨ c = ',' ∨ c = '.' ∨ c = ')' ∨ c = '"') {m n : Nat} {r r' : Str}
    (h : showNat m ++ c :: r = showNat n ++ c :: r') : m = n ∧ r = r' := by
  obtain ⟨e1, e2⟩ := split_first (not_digit m c hc) (not_digit n c hc) h
  exact ⟨Xml.showNat_inj _ _ e1, e2⟩

/-- the fields after the UUID -/
def sbTail (sb : TSb) : Str :=
  field sb.time ++ field sb.transaction ++ field (sb.flags.getD 0) ++
  field (sb.version.getD 2) ++ field sb.blockSize ++ field sb.nrData ++
  snapField sb.snap

theorem field_clean (n : Nat) : '"' ∉ field n ∧ '\n' ∉ field n := by
  have h1 := not_digit n '"' (by simp)
  have h2 := not_digit n '\n' (by simp)
  simp [field, h1, h2]

theorem sbTail_clean (sb : TSb) : '"' ∉ sbTail sb ∧ '\n' ∉ sbTail sb := by
  have hs : ∀ c, (c = '"' ∨ c = '\n') → c ∉ snapField sb.snap := by
    intro c hc
    cases sb.snap with
    | none => simp [snapField]
    | some b => rcases hc with rfl | rfl; exact (field_clean b).1; exact (field_clean b).2
  unfold sbTail
  constructor
  · simp only [List.mem_append, not_or]
    exact ⟨⟨⟨⟨⟨⟨(field_clean _).1, (field_clean _).1⟩, (field_clean _).1⟩, (field_clean _).1⟩, (field_clean _).1⟩, (field_clean _).1⟩, hs _ (Or.inl rfl)⟩
  · simp only [List.mem_append, not_or]
    exact ⟨⟨⟨⟨⟨⟨(field_clean _).2, (field_clean _).2⟩, (field_clean _).2⟩, (field_clean _).2⟩, (field_clean _).2⟩, (field_clean _).2⟩, hs _ (Or.inr rfl)⟩

theorem sbTail_inj {a b : TSb} (h : sbTail a = sbTail b) : a.time = b.time ∧ a.transaction = b.transaction ∧ a.flags.getD 0 = b.flags.getD 0 ∧
      a.version.getD 2 = b.version.getD 2 ∧ a.blockSize = b.blockSize ∧ a.nrData = b.nrData ∧ a.snap = b.snap := by
  unfold sbTail at h
  simp only [field,  List.append_assoc, List.cons_append, List.nil_append, List.cons.injEq, true_and] at h
  obtain ⟨h1, h⟩ := num_next (by simp) h
  simp only [List.cons.injEq, true_and] at h
  obtain ⟨h2, h⟩ := num_next (by simp) h
  simp only [List.cons.injEq, true_and] at h
  obtain ⟨h3, h⟩ := num_next (by simp) h
  simp only [List.cons.injEq, true_and] at h
  obtain ⟨h4, h⟩ := num_next (by simp) h
  simp only [List.cons.injEq, true_and] at h
  obtain ⟨h5, h⟩ := num_next (by simp) h
  simp only [List.cons.injEq, true_and] at h
  refine ⟨h1, h2, h3, h4, h5, ?_⟩
  cases ea : a.snap with
  | none =>
    cases eb : b.snap with
    | none =>
      simp only [ea, eb, snapField, field, List.append_nil, List.cons_append, List.nil_append] at h
      exact ⟨Xml.showNat_inj _ _ h, rfl⟩
    | some y =>
      simp only [ea, eb, snapField, field, List.append_nil, List.cons_append, List.nil_append] at h
      have := not_digit a.nrData ',' (by simp)
      rw [h] at this
      simp at this
  | some x =>
    cases eb : b.snap with
    | none =>
      simp only [ea, eb, snapField, field, List.append_nil, List.cons_append, List.nil_append] at h
      have := not_digit b.nrData ',' (by simp)
      rw [← h] at this
      simp at this
    | some y =>
      simp only [ea, eb, snapField, field, List.cons_append, List.nil_append] at h
      obtain ⟨h6, h⟩ := num_next (by simp) h
      simp only [List.cons.injEq, true_and] at h
      exact ⟨h6, by rw [Xml.showNat_inj _ _ h]⟩

theorem sb_next {a b : TSb} (ha : '\n' ∉ a.uuid) (hb : '\n' ∉ b.uuid) {r r' : Str} (h : sbLine a ++ r = sbLine b ++ r') :
    Same (.sbB a) (.sbB b) ∧ r = r' := by
  have e : ∀ (s : TSb) (r : Str), sbLine s ++ r = ['b', 'e', 'g', 'i', 'n', ' ', 's', 'u', 'p', 'e', 'r', 'b', 'l', 'o', 'c', 'k', ':', ' ', '"'] ++ ((s.uuid ++ '"' :: sbTail s) ++ '\n' :: r) := by
    intro s r
    unfold sbLine sbTail
    simp only [List.append_assoc, List.cons_append, List.nil_append]
  rw [e a, e b] at h
  have h := List.append_cancel_left h
  have cl : ∀ s : TSb, '\n' ∉ s.uuid → '\n' ∉ s.uuid ++ '"' :: sbTail s := by
    intro s hs
    have := (sbTail_clean s).2
    simp [hs, this]
  obtain ⟨h1, h2⟩ := split_first (cl a ha) (cl b hb) h
  obtain ⟨h3, h4⟩ := split_last (sbTail_clean a).1 (sbTail_clean b).1 h1
  exact ⟨⟨h3, sbTail_inj h4⟩, h2⟩

theorem dev_next {a b : TDev} {r r' : Str} (h : devLines a ++ r = devLines b ++ r') : a = b ∧ r = r' := by
  unfold devLines at h
  simp only [List.append_assoc, List.cons_append, List.nil_append, List.cons.injEq, true_and] at h
  obtain ⟨h1, h⟩ := num_next (by simp) h
  simp only [List.cons.injEq, true_and] at h
  obtain ⟨h2, h⟩ := num_next (by simp) h
  simp only [List.cons.injEq, true_and] at h
  obtain ⟨h3, h⟩ := num_next (by simp) h
  simp only [List.cons.injEq, true_and] at h
  obtain ⟨h4, h⟩ := num_next (by simp) h
  simp only [List.cons.injEq, true_and] at h
  obtain ⟨h5, h⟩ := num_next (by simp) h
  refine ⟨?_, h⟩
  cases a; cases b
  simp only at h1 h2 h3 h4 h5
  subst h1 h2 h3 h4 h5
  rfl

theorem lastOf_inj {b l l' : Nat} (h : l < 2 ^ 64) (h' : l' < 2 ^ 64) (hb : b < 2 ^ 64) (e : lastOf b l = lastOf b l') : l = l' := by
  unfold lastOf at e
  omega

/-- a mapping line, for any five numbers -/
theorem map_text {t e d f m t' e' d' f' m' : Nat} {r r' : Str} (h : mapText t e d f m ++ r = mapText t' e' d' f' m' ++ r') :
    t = t' ∧ e = e' ∧ d = d' ∧ f = f' ∧ m = m' ∧ r = r' := by
  unfold mapText at h
  simp only [List.append_assoc, List.cons_append, List.nil_append, List.cons.injEq, true_and] at h
  obtain ⟨h1, h⟩ := num_next (by simp) h
  simp only [List.cons.injEq, true_and] at h
  obtain ⟨h2, h⟩ := num_next (by simp) h
  simp only [List.cons.injEq, true_and] at h
  obtain ⟨h3, h⟩ := num_next (by simp) h
  simp only [List.cons.injEq, true_and] at h
  obtain ⟨h4, h⟩ := num_next (by simp) h
  simp only [List.cons.injEq, true_and] at h
  obtain ⟨h5, h⟩ := num_next (by simp) h
  exact ⟨h1, h2, h3, h4, h5, h⟩

theorem map_next {a b : TMap} (ha : a.len < 2 ^ 64 ∧ a.thin < 2 ^ 64) (hb : b.len < 2 ^ 64 ∧ b.thin < 2 ^ 64) {r r' : Str}
    (h : mapLine a ++ r = mapLine b ++ r') : a = b ∧ r = r' := by
  obtain ⟨h1, h2, h3, h4, h5, h6⟩ := map_text h
  rw [h1] at h2
  have hl := lastOf_inj ha.1 hb.1 hb.2 h2
  cases a; cases b
  simp only at h1 h3 h5 hl
  subst h1 h3 h5 hl
  exact ⟨rfl, h6⟩

/-- which kind of line a text begins with -/
def kind : Str → Nat
  | 'b' :: _ => 0
  | 'e' :: _ => 1
  | 'd' :: 'e' :: 'f' :: _ => 2
  | 'd' :: 'e' :: 'v' :: _ => 3
  | '\n' :: _ => 4
  | ' ' :: ' ' :: ' ' :: ' ' :: '(' :: _ => 5
  | ' ' :: ' ' :: ' ' :: ' ' :: 'r' :: _ => 6
  | _ => 7

/-- the kind of each call -/
def kindOf : TEv → Nat
  | .sbB _ => 0
  | .sbE => 1
  | .defB _ => 2
  | .devB _ => 3
  | .defE => 4
  | .devE => 4
  | .map _ => 5
  | .ref _ => 6
  | .eof => 7

theorem kind_write (e : TEv) (he : e ≠ .eof) (r : Str) : kind (write e ++ r) = kindOf e := by
  cases e with
  | eof => exact absurd rfl he
  | _ => rfl

theorem write_next {a b : TEv} (ha : a ≠ .eof) (hb : b ≠ .eof) (pa : Printable a) (pb : Printable b) {r r' : Str}
    (h : write a ++ r = write b ++ r') : Same a b ∧ r = r' := by
  have hk : kindOf a = kindOf b := by rw [← kind_write a ha r, ← kind_write b hb r', h]
  cases a <;> cases b <;> first | (simp only [kindOf] at hk; omega) | skip
  · exact sb_next pa pb h
  · exact ⟨rfl, List.append_cancel_left h⟩
  · rename_i x y
    simp only [write, List.append_assoc, List.cons_append, List.nil_append, List.cons.injEq, true_and] at h
    obtain ⟨e1, e2⟩ := split_first pa pb h
    exact ⟨by show TEv.defB x = TEv.defB y; rw [e1], e2⟩
  · exact ⟨rfl, List.append_cancel_left h⟩
  · exact ⟨trivial, List.append_cancel_left (as := ['\n']) h⟩
  · rename_i x y
    obtain ⟨e1, e2⟩ := dev_next h
    exact ⟨by show TEv.devB x = TEv.devB y; rw [e1], e2⟩
  · exact ⟨trivial, List.append_cancel_left (as := ['\n']) h⟩
  · exact ⟨rfl, List.append_cancel_left h⟩
  · rename_i x y
    obtain ⟨e1, e2⟩ := map_next pa pb h
    exact ⟨by show TEv.map x = TEv.map y; rw [e1], e2⟩
  · rename_i x y
    simp only [write, List.append_assoc, List.cons_append, List.nil_append, List.cons.injEq, true_and] at h
    obtain ⟨e1, e2⟩ := split_first pa pb h
    exact ⟨by show TEv.ref x = TEv.ref y; rw [e1], e2⟩
  · exact absurd rfl ha

theorem mapText_ne (t e d f m : Nat) : mapText t e d f m ≠ [] := by simp [mapText]

theorem write_ne {e : TEv} (h : e ≠ .eof) : write e ≠ [] := by
  cases e with
  | eof => exact absurd rfl h
  | map m => exact mapText_ne _ _ _ _ _
  | _ => simp [write, sbLine, devLines]

theorem writeAll_cons (e : TEv) (es : List TEv) : writeAll (e :: es) = write e ++ writeAll es := List.flatMap_cons

/-! ## Theorems -/

/-- C79.  Two dumps with the same text are the same dump, call by call: names and the UUID may hold anything but a newline. -/
theorem human_lossless (es : List TEv) : ∀ (es' : List TEv), (∀ e ∈ es, e ≠ .eof ∧ Printable e) → (∀ e ∈ es', e ≠ .eof ∧ Printable e) →
    writeAll es = writeAll es' → SameAll es es' := by
  induction es with
  | nil =>
    intro es' _ h' h
    cases es' with
    | nil => trivial
    | cons e es' =>
      rw [writeAll_cons] at h
      exact absurd (List.append_eq_nil_iff.mp h.symm).1 (write_ne (h' e (List.mem_cons_self ..)).1)
  | cons e es ih =>
    intro es' h1 h2 h
    cases es' with
    | nil =>
      rw [writeAll_cons] at h
      exact absurd (List.append_eq_nil_iff.mp h).1 (write_ne (h1 e (List.mem_cons_self ..)).1)
    | cons e' es' =>
      rw [writeAll_cons, writeAll_cons] at h
      obtain ⟨p1, p2⟩ := write_next (h1 e (List.mem_cons_self ..)).1 (h2 e' (List.mem_cons_self ..)).1 (h1 e (List.mem_cons_self ..)).2
        (h2 e' (List.mem_cons_self ..)).2 h
      exact ⟨p1, ih es' (fun e h => h1 e (List.mem_cons_of_mem _ h)) (fun e h => h2 e (List.mem_cons_of_mem _ h)) p2⟩

/-- A mapping is shown by its first and last blocks, both ends included, whenever the program's words hold them. -/
theorem human_last (b len : Nat) (h0 : 0 < len) (h : b + len ≤ 2 ^ 64) : lastOf b len + 1 = b + len := by
  unfold lastOf
  omega

/-- so the line of a mapping gives its first and last thin block, then its first and last data block -/
theorem human_map_line (thin data len time : Nat) (h0 : 0 < len) (ht : thin + len ≤ 2 ^ 64) (hd : data + len ≤ 2 ^ 64) :
    write (.map ⟨thin, data, time, len⟩) =
      [' ', ' ', ' ', ' ', '('] ++ showNat thin ++ ['.', '.'] ++ showNat (thin + len - 1) ++ [')', ' ', '-', '>', ' ', '('] ++
        showNat data ++ ['.', '.'] ++ showNat (data + len - 1) ++ [')', ',', ' '] ++ showNat time ++ ['\n'] := by
  have e1 : lastOf thin len = thin + len - 1 := by have := human_last thin len h0 ht; omega
  have e2 : lastOf data len = data + len - 1 := by have := human_last data len h0 hd; omega
  show mapText thin (lastOf thin len) data (lastOf data len) time = _
  rw [e1, e2]
  rfl

/-- C79 fails for names with newlines, which the XML formats allow: two different dumps with the same text. -/
theorem human_newline_refuted :
    writeAll [.defB ['a'], .ref ['b']] = writeAll [.defB (['a', '\n'] ++ [' ', ' ', ' ', ' ', 'r', 'e', 'f', ':', ' '] ++ ['b'])] ∧ '\n' ∈ (['a', '\n'] ++ [' ', ' ', ' ', ' ', 'r', 'e', 'f', ':', ' '] ++ ['b']) := by
  decide +kernel

/-- and an empty mapping is shown as one that ends before it begins, or at the end of the address space -/
theorem human_empty_map : lastOf 0 0 = 2 ^ 64 - 1 ∧ lastOf 5 0 = 4 := by decide +kernel

/-- non-vacuity: the text of a small dump -/
example :
    let es : List TEv := [.sbB ⟨['u'], 1, 2, none, some 2, 128, 4096, none⟩, .devB ⟨0, 3, 0, 0, 1⟩, .map ⟨0, 10, 1, 3⟩, .ref ['x'], .devE, .sbE]
    (∀ e ∈ es, e ≠ TEv.eof ∧ Printable e) ∧ writeAll (es.drop 4) = ['\n', 'e', 'n', 'd', ' ', 's', 'u', 'p', 'e', 'r', 'b', 'l', 'o', 'c', 'k', '\n'] := by
  constructor
  · intro e he
    simp at he
    rcases he with rfl | rfl | rfl | rfl | rfl | rfl <;> simp [Printable]
  · decide +kernel

end Verif.Human
