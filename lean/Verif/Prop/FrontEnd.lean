import Verif.Model.FrontEnd
import Verif.Prop.Superblock

/-!
# C76, C77: what the commands check before they begin
-/

namespace Verif.Front

/-! ## Specification -/

/-- the answer is yes: one of the spellings of `y` and `yes`, and white space after it -/
def Consent (a : List Char) : Prop :=
  ∃ w sp, a = w ++ sp ∧ (∀ c ∈ sp, isSpace c = true) ∧
    w ∈ [['y'], ['Y'], ['y', 'e', 's'], ['y', 'e', 'S'], ['y', 'E', 's'], ['y', 'E', 'S'], ['Y', 'e', 's'], ['Y', 'e', 'S'], ['Y', 'E', 's'], ['Y', 'E', 'S']]

/-- a regular file or block device that can be read and begins with a superblock of a thin pool, a cache or an era device -/
def HoldsMetadata (crc : Bytes → UInt32) (f : File) : Prop :=
  (f.kind = .regular ∨ f.kind = .block) ∧ f.readable = true ∧
    ∃ t, t ∈ [BT.thinSuperblock, BT.cacheSuperblock, BT.eraSuperblock] ∧ metadataBlockType crc (f.content.take 4096) = t

/-! ## Consent -/

theorem toLower_of (c x X : Char) (h1 : x.val.toNat = X.val.toNat + 32) (h2 : 65 ≤ X.val.toNat ∧ X.val.toNat ≤ 90) (h : c.toLower = x) : c = x ∨ c = X := by
  unfold Char.toLower at h
  by_cases hc : c.val ≥ 'A'.val ∧ c.val ≤ 'Z'.val
  · rw [dif_pos hc] at h
    refine Or.inr ?_
    have e := congrArg (fun c : Char => c.val.toNat) h
    simp only at e
    have hl : c.val.toNat ≤ 90 := UInt32.le_iff_toNat_le.mp hc.2
    rw [UInt32.toNat_add] at e
    have e32 : ('a'.val - 'A'.val).toNat = 32 := rfl
    rw [e32, Nat.mod_eq_of_lt (by omega)] at e
    exact Char.ext (UInt32.toNat_inj.mp (by omega))
  · rw [dif_neg hc] at h
    exact Or.inl h

theorem trimEnd_split (a : List Char) : ∃ sp, a = trimEnd a ++ sp ∧ ∀ c ∈ sp, isSpace c = true := by
  refine ⟨(a.reverse.takeWhile isSpace).reverse, ?_, fun c hc => ?_⟩
  · unfold trimEnd
    rw [← List.reverse_append, List.takeWhile_append_dropWhile, List.reverse_reverse]
  · have h := List.all_takeWhile (l := a.reverse) (p := isSpace)
    exact List.all_eq_true.mp h c (List.mem_reverse.mp hc)

theorem trimEnd_append (w sp : List Char) (h : ∀ c ∈ sp, isSpace c = true) (hw : trimEnd w = w) : trimEnd (w ++ sp) = w := by
  unfold trimEnd at *
  rw [List.reverse_append, List.dropWhile_append_of_pos (fun c hc => h c (List.mem_reverse.mp hc))]
  exact hw

/-- the prompt is answered with yes exactly if the answer is one of the spellings -/
theorem yesNo_iff (a : List Char) : yesNo (some a) = some true ↔ Consent a := by
  unfold yesNo
  simp only [Option.map_some, Option.some.injEq, Bool.or_eq_true, decide_eq_true_eq]
  constructor
  · intro h
    obtain ⟨sp, h1, h2⟩ := trimEnd_split a
    refine ⟨trimEnd a, sp, h1, h2, ?_⟩
    generalize trimEnd a = w at h
    have ly := fun c => toLower_of c 'y' 'Y' rfl (by decide)
    have le := fun c => toLower_of c 'e' 'E' rfl (by decide)
    have ls := fun c => toLower_of c 's' 'S' rfl (by decide)
    rcases h with h | h
    · have hl := congrArg List.length h
      rw [List.length_map] at hl
      match w, hl, h with
      | [a, b, c], _, h =>
        simp only [List.map_cons, List.map_nil, List.cons.injEq, and_true] at h
        rcases ly a h.1 with rfl | rfl <;> rcases le b h.2.1 with rfl | rfl <;> rcases ls c h.2.2 with rfl | rfl <;> decide
    · have hl := congrArg List.length h
      rw [List.length_map] at hl
      match w, hl, h with
      | [a], _, h =>
        simp only [List.map_cons, List.map_nil, List.cons.injEq, and_true] at h
        rcases ly a h with rfl | rfl <;> decide
  · rintro ⟨w, sp, rfl, h2, h3⟩
    have hw : trimEnd w = w ∧ (w.map Char.toLower = ['y', 'e', 's'] ∨ w.map Char.toLower = ['y']) := by
      simp only [List.mem_cons, List.not_mem_nil, or_false] at h3
      rcases h3 with rfl | rfl | rfl | rfl | rfl | rfl | rfl | rfl | rfl | rfl <;> decide
    rw [trimEnd_append w sp h2 hw.1]
    exact hw.2

/-! ## Metadata is not overwritten without consent -/

theorem isMetadata_iff (crc : Bytes → UInt32) (f : File) : (isFileOrBlk (.found f) = some true ∧ isMetadata crc (.found f) = some true) ↔ HoldsMetadata crc f := by
  unfold HoldsMetadata isFileOrBlk isMetadata readStart
  simp only [Option.some.injEq, decide_eq_true_eq, List.mem_cons, List.not_mem_nil, or_false]
  constructor
  · rintro ⟨h1, h2⟩
    by_cases hr : f.readable = true ∧ 4096 ≤ f.content.length
    · rw [if_pos hr] at h2
      simp only [Option.map_some, Option.some.injEq] at h2
      refine ⟨h1.symm, hr.1, _, ?_, rfl⟩
      cases h : metadataBlockType crc (f.content.take 4096) <;> rw [h] at h2 <;> first | (cases h2; done) | simp
    · rw [if_neg hr] at h2; cases h2
  · rintro ⟨h1, h2, t, h3, h4⟩
    have hl : 4096 ≤ f.content.length := by
      have : metadataBlockType crc (f.content.take 4096) ≠ .unknown := by rw [h4]; rcases h3 with rfl | rfl | rfl <;> decide
      have h5 := (type_sound crc _ _ this rfl).1
      rw [List.length_take, BLOCK_SIZE] at h5
      omega
    refine ⟨h1.symm, ?_⟩
    rw [if_pos ⟨h2, hl⟩]
    simp only [Option.map_some, Option.some.injEq, h4]
    rcases h3 with rfl | rfl | rfl <;> rfl

/-- `thin_metadata_pack` and `thin_metadata_unpack` go on with an output that holds metadata only if they are forced to, or if the answer is yes; and the input passes
their checks. -/
theorem overwrite_consent {crc : Bytes → UInt32} {input : Entry} {f : File} {force : Bool} {answer : Option (List Char)} (hm : HoldsMetadata crc f) :
    (packGuard crc force input (.found f) answer = true ↔ checkGuard input = true ∧ (force = true ∨ ∃ a, answer = some a ∧ Consent a)) ∧
    (unpackGuard crc force input (.found f) answer = true ↔ checkInputFile input = true ∧ (force = true ∨ ∃ a, answer = some a ∧ Consent a)) := by
  have key : checkOverwrite crc (.found f) answer = true ↔ ∃ a, answer = some a ∧ Consent a := by
    obtain ⟨h1, h2⟩ := (isMetadata_iff crc f).mpr hm
    unfold checkOverwrite
    cases answer with
    | none => 
      rw [if_pos ⟨h1, h2, by intro e; cases e⟩]
      exact ⟨fun h => (by cases h), fun ⟨a, h, _⟩ => (by cases h)⟩
    | some a =>
      by_cases hc : Consent a
      · rw [if_neg (fun h => h.2.2 ((yesNo_iff a).mpr hc))]
        exact ⟨fun _ => ⟨a, rfl, hc⟩, fun _ => rfl⟩
      · rw [if_pos ⟨h1, h2, fun e => hc ((yesNo_iff a).mp e)⟩]
        exact ⟨fun h => (by cases h), fun ⟨a', h, h'⟩ => (by cases h; exact absurd h' hc)⟩
  constructor
  · unfold packGuard
    rw [Bool.and_eq_true, Bool.or_eq_true, key]
  · unfold unpackGuard
    rw [Bool.and_eq_true, Bool.or_eq_true, key]

/-- and if the output does not hold metadata, they do not ask -/
theorem overwrite_free {crc : Bytes → UInt32} {e : Entry} (h : ∀ f, e = .found f → ¬ HoldsMetadata crc f) (answer : Option (List Char)) : checkOverwrite crc e answer = true := by
  unfold checkOverwrite
  rw [if_neg]
  intro hh
  cases e with
  | missing => cases hh.1
  | statFails => cases hh.1
  | found f => exact h f rfl ((isMetadata_iff crc f).mp ⟨hh.1, hh.2.1⟩)

/-- Metadata that may be written but not read is overwritten without a question. -/
theorem overwrite_unreadable_refuted (crc : Bytes → UInt32) (content : Bytes) (answer : Option (List Char)) :
    checkOverwrite crc (.found ⟨.regular, content, false⟩) answer = true :=
  overwrite_free (fun f hf hm => by cases hf; cases hm.2.1) answer

theorem fileSize_found (f : File) : fileSize (.found f) = if f.kind = .regular ∨ f.kind = .block ∧ f.readable = true then some f.content.length else none := by
  obtain ⟨k, c, r⟩ := f
  cases k <;> cases r <;> rfl

/-- The tools that restore or repair overwrite whatever is there, if it is large enough. -/
theorem restore_overwrites {input : Entry} {f : File} (hi : checkInputFile input = true) (hk : f.kind = .regular ∨ f.kind = .block ∧ f.readable = true)
    (hl : 40960 ≤ f.content.length) : restoreGuard input (.found f) = true := by
  unfold restoreGuard
  rw [hi, Bool.true_and]
  unfold checkOutputFile
  rw [fileSize_found, if_pos hk]
  simp only
  rw [if_neg (by omega)]

/-! ## XML -/

/-- The checkers begin exactly if the input is a regular file or a readable block device of at least 4096 bytes that does not begin, as far as it can be read, with
`<superblock`, `?xml` or `<!DOCTYPE`. -/
theorem checkGuard_iff (f : File) : checkGuard (.found f) = true ↔
    (f.kind = .regular ∨ (f.kind = .block ∧ f.readable = true)) ∧ 4096 ≤ f.content.length ∧
    (f.readable = true → ∀ p, p ∈ ["<superblock", "?xml", "<!DOCTYPE"] → ∀ r, f.content ≠ (p.toList.map fun c => UInt8.ofNat c.toNat) ++ r) := by
  have hx : ∀ line : Bytes, isXml line = true ↔ ∃ p, p ∈ ["<superblock", "?xml", "<!DOCTYPE"] ∧ (p.toList.map fun c => UInt8.ofNat c.toNat) <+: line := by
    intro line
    unfold isXml
    rw [Bool.or_eq_true, Bool.or_eq_true, List.isPrefixOf_iff_prefix, List.isPrefixOf_iff_prefix, List.isPrefixOf_iff_prefix]
    constructor
    · rintro ((h | h) | h)
      · exact ⟨"<superblock", by simp, h⟩
      · exact ⟨"?xml", by simp, h⟩
      · exact ⟨"<!DOCTYPE", by simp, h⟩
    · rintro ⟨p, hp, h⟩
      simp only [List.mem_cons, List.not_mem_nil, or_false] at hp
      rcases hp with rfl | rfl | rfl
      · exact Or.inl (Or.inl h)
      · exact Or.inl (Or.inr h)
      · exact Or.inr h
  have hlen : ∀ p, p ∈ ["<superblock", "?xml", "<!DOCTYPE"] → (p.toList.map fun c => UInt8.ofNat c.toNat).length ≤ 16 := by
    intro p hp
    simp only [List.mem_cons, List.not_mem_nil, or_false] at hp
    rcases hp with rfl | rfl | rfl <;> decide
  have hk : ∀ x : Bool, (checkInputFile (.found f) = true ∧ checkFileNotTiny (.found f) = true) ↔
      (f.kind = .regular ∨ (f.kind = .block ∧ f.readable = true)) ∧ 4096 ≤ f.content.length := by
    intro _
    unfold checkFileNotTiny
    rw [fileSize_found]
    by_cases h : f.kind = .regular ∨ f.kind = .block ∧ f.readable = true
    · rw [if_pos h]
      simp only
      have hi : checkInputFile (.found f) = true := by
        unfold checkInputFile isFileOrBlk
        rcases h with h | h
        · exact decide_eq_true (congrArg some (decide_eq_true (Or.inr h)))
        · exact decide_eq_true (congrArg some (decide_eq_true (Or.inl h.1)))
      by_cases hl : f.content.length ≤ 4095
      · rw [if_pos hl]
        exact ⟨fun h => (by cases h.2), fun h => (by omega)⟩
      · rw [if_neg hl]
        exact ⟨fun _ => ⟨h, by omega⟩, fun _ => ⟨hi, rfl⟩⟩
    · rw [if_neg h]
      exact ⟨fun h => (by cases h.2), fun h' => absurd h'.1 h⟩
  unfold checkGuard
  rw [Bool.and_eq_true, Bool.and_eq_true, hk true, and_assoc]
  refine and_congr_right (fun _ => and_congr_right (fun hl => ?_))
  unfold checkNotXml isXmlFile readStart
  simp only
  by_cases hr : f.readable = true
  · rw [if_pos ⟨hr, by omega⟩]
    simp only [Option.map_some]
    constructor
    · intro h _ p hp r he
      have : isXml (f.content.take 16) = true := (hx _).mpr ⟨p, hp, List.prefix_take_iff.mpr ⟨⟨r, he.symm⟩, hlen p hp⟩⟩
      rw [this] at h
      cases h
    · intro h
      cases hc : isXml (f.content.take 16) with
      | false => rfl
      | true =>
        obtain ⟨p, hp, hpre⟩ := (hx _).mp hc
        obtain ⟨r, hr'⟩ := (List.prefix_take_iff.mp hpre).1
        exact absurd hr'.symm (h hr p hp r)
  · rw [if_neg (fun h => hr h.1)]
    simp only [Option.map_none]
    exact ⟨fun _ h => absurd h hr, fun _ => trivial⟩

/-- a file that begins with an XML declaration and is large enough is taken for metadata -/
theorem xml_declaration_refuted (rest : Bytes) (h : 4096 ≤ rest.length) :
    checkGuard (.found ⟨.regular, ("<?xml version=".toList.map fun c => UInt8.ofNat c.toNat) ++ rest, true⟩) = true := by
  rw [checkGuard_iff]
  refine ⟨Or.inl rfl, by simp only [List.length_append]; omega, fun _ p hp r he => ?_⟩
  simp only [List.mem_cons, List.not_mem_nil, or_false] at hp
  have e1 := congrArg (fun l : Bytes => l[0]?) he
  have e2 := congrArg (fun l : Bytes => l[1]?) he
  rcases hp with rfl | rfl | rfl
  · exact absurd (show some (63 : UInt8) = some 115 from e2) (by decide)
  · exact absurd (show some (60 : UInt8) = some 63 from e1) (by decide)
  · exact absurd (show some (63 : UInt8) = some 33 from e2) (by decide)

/-! ## Metadata is taken, but for one checksum -/

theorem notXml_block {w fl : Nat} {rest more : Bytes} (hw : w < 2 ^ 32) (hfl : fl < 4) (hl : 4088 ≤ rest.length) (k : Kind) (hk : k = .regular ∨ k = .block) :
    checkGuard (.found ⟨k, w32 w ++ (w32 fl ++ rest) ++ more, true⟩) = true ↔ w ≠ 0x6c6d783f := by
  rw [checkGuard_iff]
  have hlen : 4096 ≤ (w32 w ++ (w32 fl ++ rest) ++ more).length := by
    simp only [List.length_append, leBytes_length]; omega
  have hk' : k = .regular ∨ (k = .block ∧ true = true) := hk.elim Or.inl (fun h => Or.inr ⟨h, rfl⟩)
  have h4 : (w32 w ++ (w32 fl ++ rest) ++ more)[4]? = some (UInt8.ofNat fl) := by
    rw [List.append_assoc, List.getElem?_append_right (by simp)]
    simp only [leBytes_length, Nat.sub_self]
    rw [List.append_assoc, List.getElem?_append_left (by simp)]
    simp only [leBytes, List.getElem?_cons_zero, Nat.mod_eq_of_lt (show fl < 256 by omega)]
  have ht : (w32 w ++ (w32 fl ++ rest) ++ more).take 4 = w32 w := by
    rw [List.append_assoc, List.take_append_of_le_length (by simp), List.take_of_length_le (by simp)]
  have hval : leVal (w32 w) = w := by rw [leVal_leBytes]; exact Nat.mod_eq_of_lt (by omega)
  constructor
  · rintro ⟨_, _, h⟩ rfl
    exact h rfl "?xml" (by simp) (w32 fl ++ rest ++ more) (by rw [List.append_assoc, List.append_assoc]; rfl)
  · intro hne
    refine ⟨hk', hlen, fun _ p hp r he => ?_⟩
    simp only [List.mem_cons, List.not_mem_nil, or_false] at hp
    have e4 := congrArg (fun l : Bytes => l[4]?) he
    simp only at e4
    rw [h4] at e4
    have hsmall : ∀ b : UInt8, some (UInt8.ofNat fl) = some b → b.toNat < 4 := by
      intro b hb
      cases hb
      rw [UInt8.toNat_ofNat']
      omega
    rcases hp with rfl | rfl | rfl
    · exact absurd (hsmall 101 e4) (by decide)
    · refine hne ?_
      simp only at he
      rw [he] at ht
      have : ((("?xml".toList.map fun c => UInt8.ofNat c.toNat) ++ r).take 4) = [63, 120, 109, 108] := rfl
      rw [this] at ht
      rw [← hval, ← ht]
      decide
    · exact absurd (hsmall 67 e4) (by decide)

/-- A device with a superblock that was written by one of the tools is taken by the checkers, unless its checksum happens to be the four bytes `?xml`. -/
theorem metadata_taken {crc : Bytes → UInt32} {d d' : Disk} {more : Bytes} {k : Kind} (hk : k = .regular ∨ k = .block)
    (hw : (∃ sb : Thin.Superblock, sb.Fits ∧ Thin.writeSuperblock crc d sb = some d') ∨ (∃ sb : Cache.Superblock, sb.Fits ∧ Cache.writeSuperblock crc d sb = some d') ∨
      (∃ sb : Era.Superblock, sb.Fits ∧ Era.writeSuperblock crc d sb = some d')) :
    checkGuard (.found ⟨k, d' 0 ++ more, true⟩) = true ↔ (d' 0).take 4 ≠ [63, 120, 109, 108] := by
  have key : ∃ w fl rest, w < 2 ^ 32 ∧ fl < 4 ∧ 4088 ≤ rest.length ∧ d' 0 = w32 w ++ (w32 fl ++ rest) := by
    have shape : ∀ (t : BT) (fl : Nat) (body : Bytes), t ≠ .unknown → fl < 4 → body.length ≤ 4088 → writeSb crc t d (some (w32 0 ++ (w32 fl ++ body))) = some d' →
        ∃ w fl rest, w < 2 ^ 32 ∧ fl < 4 ∧ 4088 ≤ rest.length ∧ d' 0 = w32 w ++ (w32 fl ++ rest) := by
      intro t fl body ht hfl hb hwr
      obtain ⟨w, d'', hw32, h1, h2, _⟩ := writeSb_shape crc t ht d (w32 fl ++ body) (by simp only [List.length_append, leBytes_length, BLOCK_SIZE]; omega)
      rw [hwr] at h1
      cases h1
      refine ⟨w, fl, body ++ List.replicate (BLOCK_SIZE - 4 - (w32 fl ++ body).length) 0, hw32, hfl, ?_, ?_⟩
      · simp only [List.length_append, leBytes_length, BLOCK_SIZE, List.length_replicate]; omega
      · rw [h2, List.append_assoc]
    rcases hw with ⟨sb, hf, h⟩ | ⟨sb, hf, h⟩ | ⟨sb, hf, h⟩
    · obtain ⟨_, _, _, _, _, s6, s7, _⟩ := hf
      refine shape .thinSuperblock (if sb.needs_check then 1 else 0) _ (by decide) (by cases sb.needs_check <;> decide) ?_ h
      simp [s6, s7]
    · obtain ⟨_, _, ⟨s3, _⟩, ⟨s4, _⟩, _, s6, _⟩ := hf
      obtain ⟨v0, v1, v2, hpv⟩ : ∃ a b c, sb.policy_version = [a, b, c] := by
        generalize sb.policy_version = pv at s4
        match pv, s4 with
        | [a, b, c], _ => exact ⟨a, b, c, rfl⟩
      have hlen := cache_packFields_length sb v0 v1 v2 s3 s6
      unfold Cache.writeSuperblock Cache.packSb at h
      rw [if_pos s3, hpv] at h
      unfold Cache.packFields at h hlen
      refine shape .cacheSuperblock _ _ (by decide) ?_ ?_ h
      · cases sb.clean_shutdown <;> cases sb.needs_check <;> decide
      · rw [List.length_append] at hlen
        omega
    · obtain ⟨_, _, s3, _⟩ := hf
      refine shape .eraSuperblock (if sb.clean_shutdown then 1 else 0) _ (by decide) (by cases sb.clean_shutdown <;> decide) ?_ h
      simp [s3]
  obtain ⟨w, fl, rest, h1, h2, h3, h4⟩ := key
  have hval : leVal (w32 w) = w := by rw [leVal_leBytes]; exact Nat.mod_eq_of_lt (by omega)
  have ht : (d' 0).take 4 = w32 w := by rw [h4, List.take_append_of_le_length (by simp), List.take_of_length_le (by simp)]
  rw [ht, h4, notXml_block h1 h2 h3 k hk]
  refine not_congr ⟨fun h => by rw [h]; rfl, fun h => ?_⟩
  rw [← hval, h]
  decide

/-! ## Sizes -/

theorem output_iff (f : File) : checkOutputFile (.found f) = true ↔ (f.kind = .regular ∨ (f.kind = .block ∧ f.readable = true)) ∧ 40960 ≤ f.content.length := by
  unfold checkOutputFile
  rw [fileSize_found]
  by_cases h : f.kind = .regular ∨ f.kind = .block ∧ f.readable = true
  · rw [if_pos h]
    simp only
    by_cases hl : f.content.length ≤ 40959
    · rw [if_pos hl]
      exact ⟨fun h => (by cases h), fun h => (by omega)⟩
    · rw [if_neg hl]
      exact ⟨fun _ => ⟨h, by omega⟩, fun _ => rfl⟩
  · rw [if_neg h]
    exact ⟨fun h => (by cases h), fun h' => absurd h'.1 h⟩

/-- The repair tools begin only with an input of at least one block and an output of at least ten, both regular files or block devices. -/
theorem repair_sizes {input output : Entry} (h : repairGuard input output = true) :
    ∃ f g, input = .found f ∧ output = .found g ∧ f.kind ≠ .other ∧ g.kind ≠ .other ∧ 4096 ≤ f.content.length ∧ 10 * 4096 ≤ g.content.length := by
  unfold repairGuard at h
  rw [Bool.and_eq_true, Bool.and_eq_true] at h
  obtain ⟨⟨_, h2⟩, h3⟩ := h
  cases input with
  | missing => cases h2
  | statFails => cases h2
  | found f =>
    cases output with
    | missing => cases h3
    | statFails => cases h3
    | found g =>
      obtain ⟨g1, g2⟩ := (output_iff g).mp h3
      unfold checkFileNotTiny at h2
      rw [fileSize_found] at h2
      by_cases hk : f.kind = .regular ∨ f.kind = .block ∧ f.readable = true
      · rw [if_pos hk] at h2
        simp only at h2
        by_cases hl : f.content.length ≤ 4095
        · rw [if_pos hl] at h2; cases h2
        · refine ⟨f, g, rfl, rfl, ?_, ?_, by omega, g2⟩
          · intro e; rw [e] at hk; rcases hk with hk | hk
            · cases hk
            · cases hk.1
          · intro e; rw [e] at g1; rcases g1 with hk | hk
            · cases hk
            · cases hk.1
      · rw [if_neg hk] at h2; cases h2

/-! ## Non-vacuity -/

/-- there is a file that holds metadata -/
example (crc : Bytes → UInt32) : ∃ f, HoldsMetadata crc f ∧ f.content.length = 4096 := by
  obtain ⟨w, d, _, _, hd, hty, _⟩ := writeSb_shape crc .thinSuperblock (by decide) (fun _ => []) [] (by decide)
  have hl : (d 0).length = 4096 := (type_sound crc _ _ (by decide) hty).1
  refine ⟨⟨.regular, d 0, true⟩, ⟨Or.inl rfl, rfl, .thinSuperblock, by decide, ?_⟩, hl⟩
  show metadataBlockType crc ((d 0).take 4096) = _
  rw [List.take_of_length_le (by omega)]
  exact hty

example : Consent "Yes \n".toList ∧ ¬ Consent "no".toList ∧ ¬ Consent "yess".toList ∧ ¬ Consent " y".toList ∧ ¬ Consent [] := by
  have h := fun a => yesNo_iff a
  refine ⟨(h _).mp (by decide), fun e => absurd ((h _).mpr e) (by decide), fun e => absurd ((h _).mpr e) (by decide), fun e => absurd ((h _).mpr e) (by decide),
    fun e => absurd ((h _).mpr e) (by decide)⟩

example : checkGuard (.found ⟨.regular, List.replicate 4095 0, true⟩) = false ∧ checkGuard (.found ⟨.other, List.replicate 4096 0, true⟩) = false ∧
    checkGuard .missing = false ∧ restoreGuard .missing (.found ⟨.regular, [], true⟩) = false := by
  refine ⟨?_, ?_, rfl, rfl⟩
  · rw [Bool.eq_false_iff]; intro h
    have := ((checkGuard_iff _).mp h).2.1
    simp only [List.length_replicate] at this
    omega
  · rw [Bool.eq_false_iff]; intro h
    rcases ((checkGuard_iff _).mp h).1 with h | h
    · cases h
    · cases h.1

end Verif.Front
