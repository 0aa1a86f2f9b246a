import Verif.Model.BlockIo

/-!
# C42: block I/O
-/

namespace Verif.Bio

variable {β : Type}

/-! ## Specification -/

/-- A read of `n` blocks from `pos` on: one result for every block, and a block whose result is success is what is on the device. -/
structure ReadOK (bs : Nat) (store : Nat → β) (pos n : Nat) (r : List β × List Bool) : Prop where
  bufs : r.1.length = n
  results : r.2.length = n
  read : ∀ j, r.2[j]? = some true → r.1[j]? = some (store (pos + j * bs))

/-- A write of blocks from `pos` on: one result for every block, a block whose result is success is on the device, and nothing but these blocks changes. -/
structure WriteOK (bs : Nat) (store : Nat → β) (pos : Nat) (bufs : List β) (r : (Nat → β) × List Bool) : Prop where
  results : r.2.length = bufs.length
  written : ∀ j x, r.2[j]? = some true → bufs[j]? = some x → r.1 (pos + j * bs) = x
  frame : ∀ p, (∀ j, j < bufs.length → p ≠ pos + j * bs) → r.1 p = store p

/-- every answer is an error or a number of whole blocks, at least one and not more than asked for -/
def Whole (bs : Nat) (ans : Nat → Nat → RAns β) : Prop := ∀ i r n, ans i r = .ok n → 0 < n ∧ n % bs = 0 ∧ n ≤ r

/-! ## Proof -/

theorem whole_blocks {n bs : Nat} (h : n % bs = 0) : n = n / bs * bs := by
  have := Nat.div_add_mod n bs
  rw [h, Nat.mul_comm] at this
  omega

theorem ReadOK.ok {bs : Nat} {store : Nat → β} {pos n k : Nat} {r : List β × List Bool} (hk : k ≤ n) (h : ReadOK bs store (pos + k * bs) (n - k) r) :
    ReadOK bs store pos n ((List.range k).map (fun j => store (pos + j * bs)) ++ r.1, List.replicate k true ++ r.2) := by
  refine ⟨?_, ?_, ?_⟩
  · simp only [List.length_append, List.length_map, List.length_range, h.bufs]; omega
  · simp only [List.length_append, List.length_replicate, h.results]; omega
  · intro j hj
    simp only at hj ⊢
    by_cases c : j < k
    · rw [List.getElem?_append_left (by simpa using c)]
      simp [c]
    · rw [List.getElem?_append_right (by simp; omega)] at hj ⊢
      simp only [List.length_replicate, List.length_map, List.length_range] at hj ⊢
      rw [h.read _ hj]
      congr 2
      rw [Nat.add_assoc, ← Nat.add_mul]
      congr 2
      omega

theorem ReadOK.err {bs : Nat} {store : Nat → β} {pos n : Nat} {r : List β × List Bool} (x : β) (h : ReadOK bs store (pos + bs) n r) :
    ReadOK bs store pos (n + 1) (x :: r.1, false :: r.2) := by
  refine ⟨by simp [h.bufs], by simp [h.results], ?_⟩
  intro j hj
  cases j with
  | zero => simp at hj
  | succ j =>
    simp only [List.getElem?_cons_succ] at hj ⊢
    rw [h.read _ hj]
    congr 2
    rw [Nat.add_mul, Nat.one_mul]
    omega

/-- C42, reading: whatever the device answers, if `read_blocks` returns there is a result for every block, and it is right. -/
theorem readBlocks_sound (bs : Nat) (hbs : 0 < bs) (ans : Nat → Nat → RAns β) (store : Nat → β) (pos : Nat) (bufs : List β) (r : List β × List Bool)
    (h : readBlocks bs ans store pos bufs = some r) : ReadOK bs store pos bufs.length r := by
  refine vread.partial_correctness bs ans store (fun i pos remaining bufs r => remaining = bufs.length * bs → ReadOK bs store pos bufs.length r) ?_
    0 pos (bufs.length * bs) bufs r h rfl
  intro f ih i pos remaining bufs r h hr
  by_cases c0 : remaining = 0
  · rw [if_pos c0] at h
    have : bufs.length = 0 := by
      rcases Nat.mul_eq_zero.mp (hr.symm.trans c0) with h | h
      · exact h
      · omega
    have hb : bufs = [] := List.length_eq_zero_iff.mp this
    subst hb
    cases h
    exact ⟨rfl, rfl, by simp⟩
  · rw [if_neg c0] at h
    cases ha : ans i remaining with
    | ok n =>
      simp only [ha] at h
      by_cases c1 : n > remaining ∨ n % bs ≠ 0 ∨ n / bs > bufs.length
      · rw [if_pos c1] at h; cases h
      · rw [if_neg c1] at h
        simp only [Option.bind_eq_bind, Option.bind_eq_some_iff, Option.some.injEq] at h
        obtain ⟨q, hq, rfl⟩ := h
        have hm : n % bs = 0 := Classical.not_not.mp (fun h => c1 (Or.inr (Or.inl h)))
        have hw := whole_blocks hm
        have i1 := ih _ _ _ _ _ hq (by
          rw [List.length_drop, Nat.sub_mul, ← hw, hr])
        rw [List.length_drop] at i1
        refine ReadOK.ok (by omega) ?_
        rw [← hw]
        exact i1
    | err junk =>
      simp only [ha] at h
      by_cases c1 : bufs = [] ∨ bs > remaining
      · rw [if_pos c1] at h; cases h
      · rw [if_neg c1] at h
        simp only [Option.bind_eq_bind, Option.bind_eq_some_iff, Option.some.injEq] at h
        obtain ⟨q, hq, rfl⟩ := h
        cases bufs with
        | nil => exact absurd (Or.inl rfl) c1
        | cons b bufs =>
          have hl : ((spoil junk (b :: bufs)).drop 1).length = bufs.length := by simp [spoil]
          have i1 := ih _ _ _ _ _ hq (by
            rw [hl, hr, List.length_cons, Nat.add_mul, Nat.one_mul]
            omega)
          rw [hl] at i1
          have hs : (spoil junk (b :: bufs)).take 1 = [(junk 0).getD b] := by simp [spoil]
          rw [hs]
          exact i1.err _

theorem vread_total (bs : Nat) (hbs : 0 < bs) (ans : Nat → Nat → RAns β) (hw : Whole bs ans) (store : Nat → β) : ∀ (m i pos remaining : Nat) (bufs : List β),
    bufs.length ≤ m → remaining = bufs.length * bs → ∃ r, vread bs ans store i pos remaining bufs = some r := by
  intro m
  induction m with
  | zero =>
    intro i pos remaining bufs hm hr
    have : bufs.length = 0 := by omega
    rw [this, Nat.zero_mul] at hr
    rw [vread, if_pos hr]
    exact ⟨_, rfl⟩
  | succ m ih =>
    intro i pos remaining bufs hm hr
    rw [vread]
    by_cases c0 : remaining = 0
    · rw [if_pos c0]; exact ⟨_, rfl⟩
    · rw [if_neg c0]
      have hne : 0 < bufs.length := by
        rcases Nat.eq_zero_or_pos bufs.length with h | h
        · rw [h, Nat.zero_mul] at hr; omega
        · exact h
      cases ha : ans i remaining with
      | ok n =>
        obtain ⟨h1, h2, h3⟩ := hw i remaining n ha
        have hk := whole_blocks h2
        have hkl : n / bs ≤ bufs.length := by
          rw [hr] at h3
          exact (Nat.div_le_iff_le_mul_add_pred hbs).mpr (by rw [Nat.mul_comm]; omega)
        have hk0 : 0 < n / bs := Nat.pos_of_ne_zero (by intro h; rw [h, Nat.zero_mul] at hk; omega)
        simp only
        rw [if_neg (by omega)]
        obtain ⟨r, e⟩ := ih (i + 1) (pos + n) (remaining - n) (bufs.drop (n / bs)) (by rw [List.length_drop]; omega) (by
          rw [List.length_drop, Nat.sub_mul, ← hk, hr])
        rw [e]
        exact ⟨_, rfl⟩
      | err junk =>
        simp only
        have hge : bs ≤ remaining := by
          rw [hr]; exact Nat.le_mul_of_pos_left bs hne
        rw [if_neg (by
          rintro (h | h)
          · rw [h] at hne; exact Nat.lt_irrefl 0 hne
          · omega)]
        have hl : ((spoil junk bufs).drop 1).length = bufs.length - 1 := by simp [spoil]
        obtain ⟨r, e⟩ := ih (i + 1) (pos + bs) (remaining - bs) ((spoil junk bufs).drop 1) (by omega) (by
          rw [hl, Nat.sub_mul, Nat.one_mul, hr])
        rw [e]
        exact ⟨_, rfl⟩

/-- C42, reading: it always returns if the device only answers with errors or with at least one whole block. -/
theorem readBlocks_partial (bs : Nat) (hbs : 0 < bs) (ans : Nat → Nat → RAns β) (hw : Whole bs ans) (store : Nat → β) (pos : Nat) (bufs : List β) :
    ∃ r, readBlocks bs ans store pos bufs = some r ∧ ReadOK bs store pos bufs.length r := by
  obtain ⟨r, h⟩ := vread_total bs hbs ans hw store bufs.length 0 pos _ bufs (Nat.le_refl _) rfl
  exact ⟨r, h, readBlocks_sound bs hbs ans store pos bufs r h⟩

/-- The claim without the condition is false: at the end of the file (`Ok(0)`, again and again) `read_blocks` never returns. -/
theorem readBlocks_eof_refuted (bs : Nat) (hbs : 0 < bs) (store : Nat → β) (pos : Nat) (b : β) (bufs : List β) :
    readBlocks bs (fun _ _ => .ok 0) store pos (b :: bufs) = none := by
  cases h : readBlocks bs (fun _ _ => .ok 0) store pos (b :: bufs) with
  | none => rfl
  | some r =>
    exfalso
    have hpos : 0 < (b :: bufs).length * bs := Nat.mul_pos (by simp) hbs
    refine vread.partial_correctness bs (fun _ _ => .ok 0) store (fun _ _ remaining _ _ => ¬ 0 < remaining) ?_ 0 pos _ _ r h hpos
    intro f ih i pos remaining bufs r h hr
    rw [if_neg (by omega)] at h
    simp only [Nat.zero_mod, Nat.zero_div] at h
    rw [if_neg (by simp)] at h
    simp only [Option.bind_eq_bind, Option.bind_eq_some_iff] at h
    obtain ⟨q, hq, -⟩ := h
    exact ih _ _ _ _ _ hq hr

/-! ### Writing -/

theorem put_same (store : Nat → β) (p : Nat) (x : β) : put store p x p = x := by simp [put]
theorem put_other (store : Nat → β) {p q : Nat} (x : β) (h : q ≠ p) : put store p x q = store q := by simp [put, h]

theorem putAll_out (bs : Nat) : ∀ (l : List β) (store : Nat → β) (pos p : Nat), (∀ j, j < l.length → p ≠ pos + j * bs) → putAll bs store pos l p = store p := by
  intro l
  induction l with
  | nil => intro _ _ _ _; rfl
  | cons x l ih =>
    intro store pos p h
    rw [putAll, ih]
    · exact put_other _ _ (by have := h 0 (by simp); simpa using this)
    · intro j hj
      have := h (j + 1) (by simp; omega)
      rw [Nat.add_mul, Nat.one_mul] at this
      omega

theorem putAll_in (bs : Nat) (hbs : 0 < bs) : ∀ (l : List β) (store : Nat → β) (pos j : Nat) (x : β), l[j]? = some x → putAll bs store pos l (pos + j * bs) = x := by
  intro l
  induction l with
  | nil => intro _ _ _ _ h; simp at h
  | cons y l ih =>
    intro store pos j x h
    rw [putAll]
    cases j with
    | zero =>
      simp only [List.getElem?_cons_zero, Option.some.injEq] at h
      subst h
      rw [putAll_out]
      · simp [put]
      · intro j _
        have : 0 ≤ j * bs := Nat.zero_le _
        omega
    | succ j =>
      rw [List.getElem?_cons_succ] at h
      have := ih (put store pos y) (pos + bs) j x h
      rw [Nat.add_mul, Nat.one_mul]
      rw [show pos + (j * bs + bs) = pos + bs + j * bs by omega]
      exact this

theorem spoilDev_out (bs : Nat) : ∀ (n : Nat) (junk : Nat → Option β) (store : Nat → β) (pos p : Nat), (∀ j, j < n → p ≠ pos + j * bs) →
    spoilDev bs junk store pos n p = store p := by
  intro n
  induction n with
  | zero => intro _ _ _ _ _; rfl
  | succ n ih =>
    intro junk store pos p h
    rw [spoilDev, ih]
    · cases junk 0 with
      | none => rfl
      | some x => exact put_other _ _ (by have := h 0 (by omega); simpa using this)
    · intro j hj
      have := h (j + 1) (by omega)
      rw [Nat.add_mul, Nat.one_mul] at this
      omega

theorem WriteOK.ok {bs : Nat} (hbs : 0 < bs) {store : Nat → β} {pos k : Nat} {bufs : List β} {r : (Nat → β) × List Bool} (hk : k ≤ bufs.length)
    (h : WriteOK bs (putAll bs store pos (bufs.take k)) (pos + k * bs) (bufs.drop k) r) : WriteOK bs store pos bufs (r.1, List.replicate k true ++ r.2) := by
  have hl := h.results
  rw [List.length_drop] at hl
  refine ⟨by simp only [List.length_append, List.length_replicate, hl]; omega, ?_, ?_⟩
  · intro j x hj hx
    simp only at hj ⊢
    by_cases c : j < k
    · rw [h.frame]
      · exact putAll_in bs hbs _ store pos j x (by rw [List.getElem?_take_of_lt c]; exact hx)
      · intro i _
        have e : (k + i) * bs = k * bs + i * bs := Nat.add_mul _ _ _
        have : j * bs < (k + i) * bs := Nat.mul_lt_mul_of_pos_right (by omega) hbs
        omega
    · rw [List.getElem?_append_right (by simp; omega)] at hj
      simp only [List.length_replicate] at hj
      have := h.written (j - k) x hj (by rw [List.getElem?_drop]; rw [← hx]; congr 1; omega)
      rw [Nat.add_assoc, ← Nat.add_mul, show k + (j - k) = j by omega] at this
      exact this
  · intro p hp
    show r.1 p = _
    rw [h.frame]
    · refine putAll_out bs _ store pos p ?_
      intro j hj
      rw [List.length_take] at hj
      exact hp j (by omega)
    · intro j hj
      rw [List.length_drop] at hj
      have := hp (k + j) (by omega)
      rw [Nat.add_mul] at this
      omega

theorem WriteOK.err {bs : Nat} {store store1 : Nat → β} {pos : Nat} {b : β} {bufs : List β} {r : (Nat → β) × List Bool} (h : WriteOK bs store1 (pos + bs) bufs r)
    (hf : ∀ p, (∀ j, j < bufs.length + 1 → p ≠ pos + j * bs) → store1 p = store p) : WriteOK bs store pos (b :: bufs) (r.1, false :: r.2) := by
  refine ⟨by simp [h.results], ?_, ?_⟩
  · intro j x hj hx
    cases j with
    | zero => simp at hj
    | succ j =>
      simp only [List.getElem?_cons_succ] at hj hx ⊢
      have := h.written j x hj hx
      rw [Nat.add_mul, Nat.one_mul]
      rw [show pos + (j * bs + bs) = pos + bs + j * bs by omega]
      exact this
  · intro p hp
    show r.1 p = _
    rw [h.frame]
    · exact hf p (fun j hj => hp j (by simpa using hj))
    · intro j hj
      have := hp (j + 1) (by simp; omega)
      rw [Nat.add_mul, Nat.one_mul] at this
      omega

/-- C42, writing: whatever the device answers, if `write_blocks` returns there is a result for every block, and it is right. -/
theorem writeBlocks_sound (bs : Nat) (hbs : 0 < bs) (ans : Nat → Nat → WAns β) (pos : Nat) (bufs : List β) (store : Nat → β) (r : (Nat → β) × List Bool)
    (h : writeBlocks bs ans pos bufs store = some r) : WriteOK bs store pos bufs r := by
  refine vwrite.partial_correctness bs ans (fun i pos remaining bufs store r => remaining = bufs.length * bs → WriteOK bs store pos bufs r) ?_
    0 pos (bufs.length * bs) bufs store r h rfl
  intro f ih i pos remaining bufs store r h hr
  by_cases c0 : remaining = 0
  · rw [if_pos c0] at h
    have : bufs.length = 0 := by
      rcases Nat.mul_eq_zero.mp (hr.symm.trans c0) with h | h
      · exact h
      · omega
    have hb : bufs = [] := List.length_eq_zero_iff.mp this
    subst hb
    cases h
    exact ⟨rfl, by simp, fun _ _ => rfl⟩
  · rw [if_neg c0] at h
    cases ha : ans i remaining with
    | ok n =>
      simp only [ha] at h
      by_cases c1 : n > remaining ∨ n % bs ≠ 0 ∨ n / bs > bufs.length
      · rw [if_pos c1] at h; cases h
      · rw [if_neg c1] at h
        simp only [Option.bind_eq_bind, Option.bind_eq_some_iff, Option.some.injEq] at h
        obtain ⟨q, hq, rfl⟩ := h
        have hm : n % bs = 0 := Classical.not_not.mp (fun h => c1 (Or.inr (Or.inl h)))
        have hw := whole_blocks hm
        have i1 := ih _ _ _ _ _ _ hq (by rw [List.length_drop, Nat.sub_mul, ← hw, hr])
        refine WriteOK.ok hbs (by omega) ?_
        rw [← hw]
        exact i1
    | err junk =>
      simp only [ha] at h
      by_cases c1 : bufs = [] ∨ bs > remaining
      · rw [if_pos c1] at h; cases h
      · rw [if_neg c1] at h
        simp only [Option.bind_eq_bind, Option.bind_eq_some_iff, Option.some.injEq] at h
        obtain ⟨q, hq, rfl⟩ := h
        cases bufs with
        | nil => exact absurd (Or.inl rfl) c1
        | cons b bufs =>
          have i1 := ih _ _ _ _ _ _ hq (by
            rw [List.drop_one, List.tail_cons, hr, List.length_cons, Nat.add_mul, Nat.one_mul]
            omega)
          rw [List.drop_one, List.tail_cons] at i1
          exact i1.err (fun p hp => spoilDev_out bs _ junk store pos p (by simpa using hp))

theorem vwrite_total (bs : Nat) (hbs : 0 < bs) (ans : Nat → Nat → WAns β) (hw : Whole bs ans) : ∀ (m i pos remaining : Nat) (bufs : List β) (store : Nat → β),
    bufs.length ≤ m → remaining = bufs.length * bs → ∃ r, vwrite bs ans i pos remaining bufs store = some r := by
  intro m
  induction m with
  | zero =>
    intro i pos remaining bufs store hm hr
    have : bufs.length = 0 := by omega
    rw [this, Nat.zero_mul] at hr
    rw [vwrite, if_pos hr]
    exact ⟨_, rfl⟩
  | succ m ih =>
    intro i pos remaining bufs store hm hr
    rw [vwrite]
    by_cases c0 : remaining = 0
    · rw [if_pos c0]; exact ⟨_, rfl⟩
    · rw [if_neg c0]
      have hne : 0 < bufs.length := by
        rcases Nat.eq_zero_or_pos bufs.length with h | h
        · rw [h, Nat.zero_mul] at hr; omega
        · exact h
      cases ha : ans i remaining with
      | ok n =>
        obtain ⟨h1, h2, h3⟩ := hw i remaining n ha
        have hk := whole_blocks h2
        have hkl : n / bs ≤ bufs.length := by
          rw [hr] at h3
          exact (Nat.div_le_iff_le_mul_add_pred hbs).mpr (by rw [Nat.mul_comm]; omega)
        have hk0 : 0 < n / bs := Nat.pos_of_ne_zero (by intro h; rw [h, Nat.zero_mul] at hk; omega)
        simp only
        rw [if_neg (by omega)]
        obtain ⟨r, e⟩ := ih (i + 1) (pos + n) (remaining - n) (bufs.drop (n / bs)) (putAll bs store pos (bufs.take (n / bs))) (by rw [List.length_drop]; omega) (by
          rw [List.length_drop, Nat.sub_mul, ← hk, hr])
        rw [e]
        exact ⟨_, rfl⟩
      | err junk =>
        simp only
        have hge : bs ≤ remaining := by
          rw [hr]; exact Nat.le_mul_of_pos_left bs hne
        rw [if_neg (by
          rintro (h | h)
          · rw [h] at hne; exact Nat.lt_irrefl 0 hne
          · omega)]
        obtain ⟨r, e⟩ := ih (i + 1) (pos + bs) (remaining - bs) (bufs.drop 1) (spoilDev bs junk store pos bufs.length) (by rw [List.length_drop]; omega) (by
          rw [List.length_drop, Nat.sub_mul, Nat.one_mul, hr])
        rw [e]
        exact ⟨_, rfl⟩

/-- C42, writing: it always returns if the device only answers with errors or with at least one whole block. -/
theorem writeBlocks_partial (bs : Nat) (hbs : 0 < bs) (ans : Nat → Nat → WAns β) (hw : Whole bs ans) (pos : Nat) (bufs : List β) (store : Nat → β) :
    ∃ r, writeBlocks bs ans pos bufs store = some r ∧ WriteOK bs store pos bufs r := by
  obtain ⟨r, h⟩ := vwrite_total bs hbs ans hw bufs.length 0 pos _ bufs store (Nat.le_refl _) rfl
  exact ⟨r, h, writeBlocks_sound bs hbs ans pos bufs store r h⟩

/-- The claim without the condition is false: a device that writes nothing and says so is asked forever. -/
theorem writeBlocks_full_refuted (bs : Nat) (hbs : 0 < bs) (pos : Nat) (b : β) (bufs : List β) (store : Nat → β) :
    writeBlocks bs (fun _ _ => .ok 0) pos (b :: bufs) store = none := by
  cases h : writeBlocks bs (fun _ _ => .ok 0) pos (b :: bufs) store with
  | none => rfl
  | some r =>
    exfalso
    have hpos : 0 < (b :: bufs).length * bs := Nat.mul_pos (by simp) hbs
    refine vwrite.partial_correctness bs (fun _ _ => .ok 0) (fun _ _ remaining _ _ _ => ¬ 0 < remaining) ?_ 0 pos _ _ store r h hpos
    intro f ih i pos remaining bufs store r h hr
    rw [if_neg (by omega)] at h
    simp only [Nat.zero_mod, Nat.zero_div] at h
    rw [if_neg (by simp)] at h
    simp only [Option.bind_eq_bind, Option.bind_eq_some_iff] at h
    obtain ⟨q, hq, -⟩ := h
    exact ih _ _ _ _ _ _ hq hr

/-- a read or write that stops in the middle of a block is a panic -/
theorem readBlocks_short_refuted (bs : Nat) (hbs : 1 < bs) (store : Nat → β) (pos : Nat) (b : β) (bufs : List β) :
    readBlocks bs (fun _ _ => .ok 1) store pos (b :: bufs) = none := by
  unfold readBlocks
  rw [vread]
  have hpos : 0 < (b :: bufs).length * bs := Nat.mul_pos (by simp) (by omega)
  rw [if_neg (by omega)]
  simp only
  rw [if_pos (Or.inr (Or.inl (by rw [Nat.mod_eq_of_lt hbs]; omega)))]

/-! ### One block at a time -/

theorem simpleRead_correct (bs : Nat) (ans : Nat → Option (Option β)) (store : Nat → β) : ∀ (bufs : List β) (i pos : Nat),
    ReadOK bs store pos bufs.length (simpleRead bs ans store i pos bufs) := by
  intro bufs
  induction bufs with
  | nil => intro i pos; exact ⟨rfl, rfl, by simp [simpleRead]⟩
  | cons b bufs ih =>
    intro i pos
    have h := ih (i + 1) (pos + bs)
    rw [simpleRead]
    cases ans i with
    | none =>
      have := ReadOK.ok (k := 1) (n := bufs.length + 1) (pos := pos) (r := simpleRead bs ans store (i + 1) (pos + bs) bufs) (by omega) (by
        rw [Nat.one_mul, Nat.add_sub_cancel]; exact h)
      simpa using this
    | some junk => exact h.err _

theorem simpleWrite_correct (bs : Nat) (hbs : 0 < bs) (ans : Nat → Option (Option β)) : ∀ (bufs : List β) (i pos : Nat) (store : Nat → β),
    WriteOK bs store pos bufs (simpleWrite bs ans i pos bufs store) := by
  intro bufs
  induction bufs with
  | nil => intro i pos store; exact ⟨rfl, by simp [simpleWrite], fun _ _ => rfl⟩
  | cons b bufs ih =>
    intro i pos store
    rw [simpleWrite]
    cases ans i with
    | none =>
      have h := ih (i + 1) (pos + bs) (put store pos b)
      exact WriteOK.ok (k := 1) (bufs := b :: bufs) (pos := pos) (store := store) hbs (by simp) (by
        rw [Nat.one_mul, List.drop_one, List.tail_cons, List.take_succ_cons, List.take_zero]; exact h)
    | some junk =>
      refine WriteOK.err (ih (i + 1) (pos + bs) _) ?_
      intro p hp
      cases junk with
      | none => rfl
      | some x => exact put_other _ _ (by have := hp 0 (by omega); simpa using this)

/-! ### Examples -/

/-- first an error, then two blocks, then what is left -/
def demoAns : Nat → Nat → RAns Nat
  | 0, _ => .err fun i => if i = 0 then some 99 else none
  | 1, r => .ok (if r < 1024 then r / 512 * 512 else 1024)
  | _, r => .ok (r / 512 * 512)

example : (readBlocks 512 demoAns (fun p => p + 7) 512 [0, 0, 0, 0, 0]) =
    some ([99, 1031, 1543, 2055, 2567], [false, true, true, true, true]) := by
  simp [readBlocks, vread, demoAns, spoil]
  rfl

/-- answers as the condition asks for -/
def wholeAns (bs : Nat) : Nat → Nat → RAns Nat := fun i r => if i % 2 = 0 ∨ r < bs ∨ bs = 0 then .err fun _ => none else .ok bs

example (bs : Nat) : Whole bs (wholeAns bs) := by
  intro i r n h
  unfold wholeAns at h
  by_cases c : i % 2 = 0 ∨ r < bs ∨ bs = 0
  · rw [if_pos c] at h; cases h
  · rw [if_neg c] at h
    cases h
    exact ⟨by omega, Nat.mod_self _, by omega⟩

end Verif.Bio
