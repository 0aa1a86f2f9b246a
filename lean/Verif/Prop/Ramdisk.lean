import Verif.Model.Ramdisk

/-!
# C92: injected errors fail exactly the transfers that touch them

`Broken d i`: byte `i` lies in a page that was made to fail.
-/

namespace Verif.Ram

variable {β : Type} {d : Disk β}

/-! ## Specification -/

/-- byte `i` lies in a failing page -/
def Broken (d : Disk β) (i : Nat) : Prop := i / 4096 ∈ d.bad

/-- one of the bytes `s..e` lies in a failing page -/
def Touches (d : Disk β) (s e : Nat) : Prop := ∃ i, s ≤ i ∧ i < e ∧ Broken d i

/-! ## Lemmas -/

theorem mem_pages {s e p : Nat} (h : s < e) : p ∈ pages s e ↔ ∃ i, s ≤ i ∧ i < e ∧ i / 4096 = p := by
  unfold pages
  rw [List.mem_range'_1, Nat.shiftRight_eq_div_pow]
  constructor
  · rintro ⟨h1, h2⟩
    by_cases hp : s ≤ p * 4096
    · exact ⟨p * 4096, hp, by omega, by omega⟩
    · exact ⟨s, Nat.le_refl _, h, by omega⟩
  · rintro ⟨i, h1, h2, rfl⟩
    omega

theorem valid_iff {s e : Nat} (h : s < e) : d.valid s e = true ↔ ¬ Touches d s e := by
  unfold Disk.valid
  rw [List.all_eq_true]
  constructor
  · rintro hv ⟨i, h1, h2, h3⟩
    have := hv (i / 4096) ((mem_pages h).mpr ⟨i, h1, h2, rfl⟩)
    simp only [Bool.not_eq_true', List.contains_eq_mem, decide_eq_false_iff_not] at this
    exact this h3
  · intro hn p hp
    obtain ⟨i, h1, h2, rfl⟩ := (mem_pages h).mp hp
    simp only [Bool.not_eq_true', List.contains_eq_mem, decide_eq_false_iff_not]
    exact fun hb => hn ⟨i, h1, h2, hb⟩

/-! ## Theorems -/

/-- **C92**: making a range fail breaks every byte of the pages it touches, and no other. -/
theorem invalidate_exact {s e : Nat} (h : s < e) (i : Nat) :
    Broken (d.invalidate s e) i ↔ Broken d i ∨ ∃ j, s ≤ j ∧ j < e ∧ j / 4096 = i / 4096 := by
  unfold Broken Disk.invalidate
  simp only [List.mem_append, mem_pages h]

/-- **C92**: a read inside the disk fails exactly if it touches a failing page; otherwise it gives the bytes that are there. -/
theorem read_exact {off len : Nat} (h0 : 0 < len) (hin : off + len ≤ d.data.length) :
    (Touches d off (off + len) → d.readAt off len = .err) ∧
    (¬ Touches d off (off + len) → ∃ b, d.readAt off len = .ok b ∧ b.length = len ∧ ∀ k, k < len → b[k]? = d.data[off + k]?) := by
  unfold Disk.readAt
  constructor
  · intro h
    rw [if_neg (fun hv => (valid_iff (by omega)).mp hv h)]
  · intro h
    rw [if_pos ((valid_iff (by omega)).mpr h), if_pos hin]
    refine ⟨_, rfl, by rw [List.length_take, List.length_drop]; omega, fun k hk => ?_⟩
    rw [List.getElem?_take_of_lt hk, List.getElem?_drop]

/-- the bytes after a splice -/
theorem splice_get {data buf : List β} {off : Nat} (hin : off + buf.length ≤ data.length) (i : Nat) :
    (splice data buf off)[i]? = if off ≤ i ∧ i < off + buf.length then buf[i - off]? else data[i]? := by
  unfold splice
  have hl : (data.take off).length = off := by rw [List.length_take]; omega
  rw [List.append_assoc]
  by_cases h1 : i < off
  · rw [List.getElem?_append_left (by omega), List.getElem?_take_of_lt h1, if_neg (by omega)]
  · rw [List.getElem?_append_right (by omega), hl]
    by_cases h2 : i < off + buf.length
    · rw [List.getElem?_append_left (by omega), if_pos ⟨by omega, h2⟩]
    · rw [List.getElem?_append_right (by omega), List.getElem?_drop, if_neg (by omega)]
      congr 1
      omega

theorem splice_length {data buf : List β} {off : Nat} (hin : off + buf.length ≤ data.length) : (splice data buf off).length = data.length := by
  unfold splice
  simp only [List.length_append, List.length_take, List.length_drop]
  omega

/-- **C92**: a write inside the disk fails exactly if it touches a failing page, and then changes nothing; otherwise its bytes are there, no other byte has changed, and no
page has begun or ceased to fail. -/
theorem write_exact {off : Nat} {buf : List β} (h0 : 0 < buf.length) (hin : off + buf.length ≤ d.data.length) :
    (Touches d off (off + buf.length) → d.writeAt off buf = (d, .err)) ∧
    (¬ Touches d off (off + buf.length) → ∃ d', d.writeAt off buf = (d', .ok buf.length) ∧ d'.bad = d.bad ∧ d'.data.length = d.data.length ∧
      ∀ i, d'.data[i]? = if off ≤ i ∧ i < off + buf.length then buf[i - off]? else d.data[i]?) := by
  unfold Disk.writeAt
  constructor
  · intro h
    rw [if_neg (fun hv => (valid_iff (by omega)).mp hv h)]
  · intro h
    rw [if_pos ((valid_iff (by omega)).mpr h), if_pos hin]
    exact ⟨_, rfl, rfl, splice_length hin, splice_get hin⟩

/-- **C92**: a vectored write of whole pages succeeds exactly if no page it touches fails, and then the bytes of all buffers are there, one buffer after the other. -/
theorem writeV_exact (bufs : List (List β)) : ∀ {d : Disk β} {pos n : Nat}, (∀ b ∈ bufs, b.length % 4096 = 0 ∧ 0 < b.length) → pos + bufs.flatten.length ≤ d.data.length →
    (Touches d pos (pos + bufs.flatten.length) → (d.writeV bufs pos n).2 = .err) ∧
    (¬ Touches d pos (pos + bufs.flatten.length) → ∃ d', d.writeV bufs pos n = (d', .ok (n + bufs.flatten.length)) ∧ d'.bad = d.bad ∧
      ∀ i, d'.data[i]? = if pos ≤ i ∧ i < pos + bufs.flatten.length then bufs.flatten[i - pos]? else d.data[i]?) := by
  induction bufs with
  | nil =>
    intro d pos n _ _
    refine ⟨?_, fun _ => ⟨d, rfl, rfl, fun i => ?_⟩⟩
    · rintro ⟨i, h1, h2, -⟩
      simp only [List.flatten_nil, List.length_nil] at h2
      omega
    · rw [if_neg (by simp only [List.flatten_nil, List.length_nil]; omega)]
  | cons b bs ih =>
    intro d pos n hb hin
    obtain ⟨ha, h0⟩ := hb b (by simp)
    have hb' : ∀ b ∈ bs, b.length % 4096 = 0 ∧ 0 < b.length := fun x hx => hb x (by simp [hx])
    simp only [List.flatten_cons, List.length_append] at hin ⊢
    unfold Disk.writeV
    rw [if_neg (by omega)]
    obtain ⟨w1, w2⟩ := write_exact (d := d) (off := pos) h0 (by omega)
    by_cases ht : Touches d pos (pos + b.length)
    · rw [w1 ht]
      refine ⟨fun _ => rfl, fun hn => absurd ?_ hn⟩
      obtain ⟨i, h1, h2, h3⟩ := ht
      exact ⟨i, h1, by omega, h3⟩
    · obtain ⟨d', e, hbad, hlen, hget⟩ := w2 ht
      rw [e]
      simp only
      have hbr : ∀ i, Broken d' i ↔ Broken d i := fun i => by unfold Broken; rw [hbad]
      obtain ⟨i1, i2⟩ := @ih d' (pos + b.length) (n + b.length) hb' (by omega)
      constructor
      · rintro ⟨i, h1, h2, h3⟩
        refine i1 ⟨i, ?_, by omega, (hbr i).mpr h3⟩
        by_cases hi : i < pos + b.length
        · exact absurd ⟨i, h1, hi, h3⟩ ht
        · omega
      · intro hn
        obtain ⟨d'', e2, hbad2, hget2⟩ := i2 (fun ⟨i, h1, h2, h3⟩ => hn ⟨i, by omega, by omega, (hbr i).mp h3⟩)
        refine ⟨d'', ?_, hbad2.trans hbad, fun i => ?_⟩
        · rw [e2, Nat.add_assoc]
        · rw [hget2 i, hget i]
          by_cases h1 : pos + b.length ≤ i
          · by_cases h2 : i < pos + b.length + bs.flatten.length
            · rw [if_pos ⟨h1, h2⟩, if_pos ⟨by omega, by omega⟩, List.getElem?_append_right (by omega)]
              congr 1
              omega
            · rw [if_neg (by omega), if_neg (by omega), if_neg (by omega)]
          · rw [if_neg (by omega)]
            by_cases h3 : pos ≤ i
            · rw [if_pos ⟨h3, by omega⟩, if_pos ⟨h3, by omega⟩, List.getElem?_append_left (by omega)]
            · rw [if_neg (by omega), if_neg (by omega)]

/-- **C92**: a vectored read of whole pages fails exactly if a page it touches fails; otherwise the buffers hold, one after the other, the bytes that are there. -/
theorem readV_exact (lens : List Nat) : ∀ {pos : Nat}, (∀ l ∈ lens, l % 4096 = 0 ∧ 0 < l) → pos + lens.sum ≤ d.data.length →
    (Touches d pos (pos + lens.sum) → d.readV lens pos = .err) ∧
    (¬ Touches d pos (pos + lens.sum) → ∃ bs, d.readV lens pos = .ok bs ∧ bs.map List.length = lens ∧ bs.flatten = (d.data.drop pos).take lens.sum) := by
  induction lens with
  | nil =>
    intro pos _ _
    refine ⟨?_, fun _ => ⟨[], rfl, rfl, by simp⟩⟩
    rintro ⟨i, h1, h2, -⟩
    simp only [List.sum_nil] at h2
    omega
  | cons l ls ih =>
    intro pos hl hin
    obtain ⟨ha, h0⟩ := hl l (by simp)
    rw [List.sum_cons] at hin ⊢
    unfold Disk.readV
    rw [if_neg (by omega)]
    obtain ⟨i1, i2⟩ := @ih (pos + l) (fun x hx => hl x (by simp [hx])) (by omega)
    by_cases ht : Touches d pos (pos + l)
    · rw [(read_exact h0 (by omega)).1 ht]
      refine ⟨fun _ => rfl, fun hn => absurd ?_ hn⟩
      obtain ⟨i, h1, h2, h3⟩ := ht
      exact ⟨i, h1, by omega, h3⟩
    · have e : d.readAt pos l = .ok ((d.data.drop pos).take l) := by
        unfold Disk.readAt
        rw [if_pos ((valid_iff (by omega)).mpr ht), if_pos (by omega)]
      rw [e]
      simp only
      constructor
      · rintro ⟨i, h1, h2, h3⟩
        rw [i1 ⟨i, by
          by_cases hi : i < pos + l
          · exact absurd ⟨i, h1, hi, h3⟩ ht
          · omega, by omega, h3⟩]
      · intro hn
        obtain ⟨bs, e2, h2, h3⟩ := i2 (fun ⟨i, h1, h2, h3⟩ => hn ⟨i, by omega, by omega, h3⟩)
        rw [e2]
        refine ⟨_, rfl, ?_, ?_⟩
        · rw [List.map_cons, h2, List.length_take, List.length_drop]
          congr 1
          omega
        · rw [List.flatten_cons, h3, ← List.drop_drop, List.take_add]

/-- a disk of three pages of which the last fails -/
def demoDisk : Disk Nat := (⟨List.replicate 12288 0, []⟩ : Disk Nat).invalidate 8200 8201

/-- The comment in the code says that an I/O with a broken sector fails as a whole (`src/io_engine/ramdisk.rs:16-17`).  A vectored write does not: the buffers before the
broken page have been written. -/
theorem writeV_partial_refuted : (demoDisk.writeV [List.replicate 4096 1, List.replicate 4096 2] 4096 0).2 = .err ∧
    (demoDisk.writeV [List.replicate 4096 1, List.replicate 4096 2] 4096 0).1.data[4096]? = some 1 ∧ demoDisk.data[4096]? = some 0 := by
  decide +kernel

/-- For an empty range the statement is false: making `5..5` fail breaks the first page. -/
theorem invalidate_empty_refuted : Broken ((⟨[], []⟩ : Disk Nat).invalidate 5 5) 0 := by
  show 0 ∈ [] ++ pages 5 5
  decide

/-- both cases of the theorems happen -/
example : Touches demoDisk 8192 12288 ∧ ¬ Touches demoDisk 0 8192 := by
  have hb : demoDisk.bad = [2] := by decide +kernel
  constructor
  · exact ⟨8192, Nat.le_refl _, by decide, by unfold Broken; rw [hb]; decide⟩
  · rintro ⟨i, -, h2, h3⟩
    unfold Broken at h3
    rw [hb, List.mem_singleton] at h3
    omega

end Verif.Ram
