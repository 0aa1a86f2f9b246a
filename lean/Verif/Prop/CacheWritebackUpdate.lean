import Verif.Prop.CacheWritebackOps

/-!
# `cache_writeback`: clearing the dirty flags

Both updates clear the flags of exactly the cleaned blocks and change nothing else; after a failed write, or a crash, the flags of some of the cleaned blocks are clear
and nothing else has changed.
-/

namespace Verif.Wb

open Verif.CacheM
open Verif.Bits (ABlock)
open Verif.BT (Tree)
open Verif.Arr (Stored ASt chunk divUp)

/-! ## Chunks -/

theorem chunk_getElem {epb nr k i : Nat} (a : Nat → Nat) (he : 0 < epb) : (chunk epb nr a k)[i]? = if i < epb ∧ k * epb + i < nr then some (a (k * epb + i)) else none := by
  by_cases hi : i < epb ∧ k * epb + i < nr
  · rw [if_pos hi]
    unfold chunk
    rw [List.getElem?_map, List.getElem?_range (by omega)]
    rfl
  · rw [if_neg hi, List.getElem?_eq_none_iff, Arr.chunk_length]
    omega

theorem chunk_congr {epb nr k : Nat} {a a' : Nat → Nat} (he : 0 < epb) (h : ∀ c, c < nr → c / epb = k → a c = a' c) : chunk epb nr a k = chunk epb nr a' k := by
  apply List.ext_getElem?
  intro i
  rw [chunk_getElem a he, chunk_getElem a' he]
  by_cases hi : i < epb ∧ k * epb + i < nr
  · rw [if_pos hi, if_pos hi, h _ hi.2]
    rw [Nat.add_comm, Nat.add_mul_div_right _ _ he, Nat.div_eq_of_lt hi.1, Nat.zero_add]
  · rw [if_neg hi, if_neg hi]

/-- the array with entry `c` changed -/
def upd (a : Nat → Nat) (c v : Nat) : Nat → Nat := fun x => if x = c then v else a x

theorem chunk_set {epb nr k i : Nat} (a : Nat → Nat) (he : 0 < epb) (hi : i < epb) (v : Nat) :
    (chunk epb nr a k).set i v = chunk epb nr (upd a (k * epb + i) v) k := by
  apply List.ext_getElem?
  intro j
  rw [chunk_getElem _ he, List.getElem?_set, chunk_getElem _ he, Arr.chunk_length]
  by_cases hij : i = j
  · subst hij
    rw [if_pos rfl]
    by_cases hn : k * epb + i < nr
    · rw [if_pos (by omega), if_pos ⟨hi, hn⟩]
      unfold upd
      rw [if_pos rfl]
    · rw [if_neg (by omega), if_neg (by omega)]
  · rw [if_neg hij]
    unfold upd
    by_cases hj : j < epb ∧ k * epb + j < nr
    · rw [if_pos hj, if_pos hj, if_neg (by omega)]
    · rw [if_neg hj, if_neg hj]

/-! ## Writing a block -/

theorem Holds.write {epb nr : Nat} {bs : List Nat} {mem0 mem : Nat → Option ABlock} {a' : Nat → Nat} (hn : bs.Nodup) {k b : Nat} (hb : bs[k]? = some b)
    (he : ∀ (j b' : Nat), j ≠ k → bs[j]? = some b' → mem b' = some ⟨epb, chunk epb nr a' j⟩) (hf : ∀ b, b ∉ bs → mem b = mem0 b) :
    Holds epb nr bs mem0 (fun x => if x = b then some ⟨epb, chunk epb nr a' k⟩ else mem x) a' := by
  constructor
  · intro j b' hj
    by_cases hjk : j = k
    · subst hjk
      rw [hb] at hj
      cases hj
      rw [if_pos rfl]
    · have hbb : b' ≠ b := by
        intro e
        subst e
        have h1 := (List.getElem?_eq_some_iff.mp hj)
        obtain ⟨h1, h2⟩ := h1
        exact hjk ((List.getElem?_inj h1 hn).mp (hj.trans hb.symm))
      rw [if_neg hbb]
      exact he j b' hjk hj
  · intro x hx
    rw [if_neg (fun e => hx (by rw [e]; exact List.mem_of_getElem? hb)), hf x hx]

theorem Holds.congr {epb nr : Nat} {bs : List Nat} {mem0 mem : Nat → Option ABlock} {a a' : Nat → Nat} (he : 0 < epb) (h : Holds epb nr bs mem0 mem a)
    (ha : ∀ c, c < nr → a c = a' c) : Holds epb nr bs mem0 mem a' :=
  ⟨fun k b hb => by rw [h.each k b hb, chunk_congr he (fun c hc _ => ha c hc)], h.frame⟩

/-! ## Version 1 -/

/-- the mappings with the dirty flags of `P` cleared -/
def cleanArr (P : List Nat) (a : Nat → Nat) : Nat → Nat := fun c => if c ∈ P then cleanWord (a c) else a c

/-- what an update leaves: all of `want` is done, or a write failed and some of it is -/
def Updated (wok : Nat → Bool) (mem : List Nat → (Nat → Option ABlock) → Prop) (want : List Nat) (r : Except (DErr × USt) USt) : Prop :=
  match r with
  | .ok u => mem want u.mem
  | .error (e, u) => e = .err ∧ (∃ k, wok k = false) ∧ ∃ Q, (∀ c ∈ Q, c ∈ want) ∧ mem Q u.mem

section
variable {epb nr : Nat} {bs : List Nat} {mem0 : Nat → Option ABlock} {a : Nat → Nat}

/-- the current block of the loop -/
structure Cur1 (epb nr : Nat) (bs : List Nat) (mem0 : Nat → Option ABlock) (a : Nat → Nat) (P : List Nat) (index b : Nat) (ab : ABlock) (mem : Nat → Option ABlock) : Prop where
  at_ : bs[index]? = some b
  block : ab = ⟨epb, chunk epb nr (cleanArr P a) index⟩
  mem : ∃ Q, (∀ c ∈ Q, c ∈ P) ∧ (∀ c ∈ P, c / epb ≠ index → c ∈ Q) ∧ Holds epb nr bs mem0 mem (cleanArr Q a)

theorem Cur1.flush {P : List Nat} {index b : Nat} {ab : ABlock} {mem : Nat → Option ABlock} (he : 0 < epb) (hn : bs.Nodup) (h : Cur1 epb nr bs mem0 a P index b ab mem) :
    Holds epb nr bs mem0 (fun x => if x = b then some ab else mem x) (cleanArr P a) := by
  obtain ⟨Q, q1, q2, q3⟩ := h.mem
  rw [h.block]
  refine Holds.write hn h.at_ ?_ q3.frame
  intro j b' hj hb
  rw [q3.each j b' hb]
  refine congrArg (fun l => some (ABlock.mk epb l)) (chunk_congr he ?_)
  intro c _ hc
  unfold cleanArr
  by_cases hm : c ∈ P
  · rw [if_pos (q2 c hm (by omega)), if_pos hm]
  · rw [if_neg (fun h => hm (q1 c h)), if_neg hm]

theorem update1_spec (wok : Nat → Bool) (he : 0 < epb) (hn : bs.Nodup) (hat : ∀ c, c < nr → ∃ b, bs[c / epb]? = some b) :
    ∀ (cs P : List Nat) (index b : Nat) (ab : ABlock) (needs : Bool) (u : USt),
    (P ++ cs).Nodup → (∀ c ∈ cs, c < nr) → (needs = false → P = []) → Cur1 epb nr bs mem0 a P index b ab u.mem →
    Updated wok (fun Q m => Holds epb nr bs mem0 m (cleanArr Q a)) (P ++ cs) (update1 wok bs epb index b ab needs cs u) := by
  intro cs
  induction cs with
  | nil =>
    intro P index b ab needs u hnd hlt hne hc
    rw [List.append_nil]
    obtain ⟨Q, q1, q2, q3⟩ := hc.mem
    unfold update1
    cases needs with
    | false =>
      have hp := hne rfl
      have hq : Q = [] := List.eq_nil_iff_forall_not_mem.mpr fun c hc => by have := q1 c hc; rw [hp] at this; cases this
      rw [hp, ← hq]
      exact q3
    | true =>
      simp only [if_true]
      unfold USt.write
      by_cases hw : wok u.writes = true
      · rw [if_pos hw]; exact hc.flush he hn
      · rw [if_neg hw]
        exact ⟨rfl, ⟨_, by simpa using hw⟩, Q, q1, q3⟩
  | cons c cs ih =>
    intro P index b ab needs u hnd hlt hne hc
    have hcn : c < nr := hlt c (by simp)
    have hcP : c ∉ P := by
      intro h
      exact (List.nodup_append.mp hnd).2.2 c h c (by simp) rfl
    have happ : P ++ c :: cs = (P ++ [c]) ++ cs := by simp
    have step : ∀ (b' : Nat) (ab' : ABlock) (u' : USt), Cur1 epb nr bs mem0 a P (c / epb) b' ab' u'.mem →
        Updated wok (fun Q m => Holds epb nr bs mem0 m (cleanArr Q a)) (P ++ c :: cs)
          (match ab'.values[c % epb]? with
          | none => .error (.panic, u')
          | some w => update1 wok bs epb (c / epb) b' { ab' with values := ab'.values.set (c % epb) (cleanWord w) } true cs u') := by
      intro b' ab' u' hc'
      have hv : ab'.values[c % epb]? = some (a c) := by
        rw [hc'.block]
        show (chunk epb nr (cleanArr P a) (c / epb))[c % epb]? = _
        rw [Arr.chunk_get _ hcn he]
        unfold cleanArr
        rw [if_neg hcP]
      rw [hv, happ]
      simp only
      refine ih (P ++ [c]) (c / epb) b' _ true u' (by rw [← happ]; exact hnd) (fun x hx => hlt x (by simp [hx])) (by simp) ⟨hc'.at_, ?_, ?_⟩
      · rw [hc'.block]
        simp only
        rw [chunk_set _ he (Nat.mod_lt _ he)]
        refine congrArg (ABlock.mk epb) (chunk_congr he ?_)
        intro x _ _
        have hx : c / epb * epb + c % epb = c := by rw [Nat.mul_comm]; exact Nat.div_add_mod c epb
        rw [hx]
        unfold upd cleanArr
        by_cases hxc : x = c
        · subst hxc; simp [hcP]
        · rw [if_neg hxc]; simp [hxc]
      · obtain ⟨Q, q1, q2, q3⟩ := hc'.mem
        refine ⟨Q, fun x hx => List.mem_append_left _ (q1 x hx), ?_, q3⟩
        intro x hx hne'
        rcases List.mem_append.mp hx with hx | hx
        · exact q2 x hx hne'
        · rw [List.mem_singleton.mp hx] at hne'; exact absurd rfl hne'
    unfold update1
    by_cases hi : c / epb = index
    · rw [if_neg (by simp [hi])]
      rw [← hi] at hc
      have := step b ab u hc
      rw [hi] at this
      exact this
    · rw [if_pos hi]
      obtain ⟨b', hb'⟩ := hat c hcn
      have move : ∀ u' : USt, Holds epb nr bs mem0 u'.mem (cleanArr P a) →
          Cur1 epb nr bs mem0 a P (c / epb) b' ⟨epb, chunk epb nr (cleanArr P a) (c / epb)⟩ u'.mem :=
        fun u' hu => ⟨hb', rfl, P, fun _ h => h, fun _ h _ => h, hu⟩
      have next : ∀ u' : USt, Holds epb nr bs mem0 u'.mem (cleanArr P a) →
          Updated wok (fun Q m => Holds epb nr bs mem0 m (cleanArr Q a)) (P ++ c :: cs)
            (match load u'.mem bs (c / epb) with
            | .error e => .error (e, u')
            | .ok (b, ab) =>
              match ab.values[c % epb]? with
              | none => .error (.panic, u')
              | some w => update1 wok bs epb (c / epb) b { ab with values := ab.values.set (c % epb) (cleanWord w) } true cs u') := by
        intro u' hu
        rw [hu.load hb']
        exact step _ _ u' (move u' hu)
      obtain ⟨Q, q1, q2, q3⟩ := hc.mem
      cases needs with
      | false =>
        have hp := hne rfl
        have hq : Q = [] := List.eq_nil_iff_forall_not_mem.mpr fun c hc => by have := q1 c hc; rw [hp] at this; cases this
        simp only [Bool.false_eq_true, if_false]
        exact next u (by rw [hp, ← hq]; exact q3)
      | true =>
        simp only [if_true]
        unfold USt.write
        by_cases hw : wok u.writes = true
        · rw [if_pos hw]
          exact next ⟨_, _⟩ (hc.flush he hn)
        · rw [if_neg hw]
          exact ⟨rfl, ⟨_, by simpa using hw⟩, Q, fun x hx => List.mem_append_left _ (q1 x hx), q3⟩

end

/-- C35, version 1: the update clears the dirty flags of the cleaned blocks; if a write fails, of some of them. -/
theorem updateV1_stored (wok : Nat → Bool) {epb epb4 nr n : Nat} {a : Nat → Nat} {root : Nat} {s : ASt Nat} {h : Nat} {t : Tree Nat h} {blocks : List Nat}
    (he : 0 < epb) (h0 : 0 < nr) (hs : Stored epb nr n a root s h t blocks) (hn : blocks.Nodup) (cleaned : List Nat) (hc : Inc cleaned) (hlt : ∀ c ∈ cleaned, c < nr) :
    Updated wok (fun Q m => Holds epb nr blocks (devOf epb epb4 n s).maps m (cleanArr Q a)) cleaned (updateV1 wok (devOf epb epb4 n s) epb root cleaned) := by
  unfold updateV1
  rw [valueVec_stored hs]
  simp only
  obtain ⟨b, hb⟩ := stored_at he hs h0
  rw [Nat.zero_div] at hb
  rw [(stored_holds (epb4 := epb4) hs).load hb]
  simp only
  exact update1_spec wok he hn (fun c hc => stored_at he hs hc) cleaned [] 0 b _ false ⟨_, 0⟩ (by simpa using hc.nodup) hlt (fun _ => rfl)
    ⟨hb, by congr 1, [], fun _ h => h, fun _ h _ => h, stored_holds hs⟩

/-! ## Version 2 -/

/-- the bitset's words with the bits `P` cleared -/
def clearArr (P : List Nat) (a : Nat → Nat) : Nat → Nat := P.foldl (fun a c => upd a (c / 64) (clearBit (a (c / 64)) (c % 64))) a

theorem clearArr_snoc (P : List Nat) (c : Nat) (a : Nat → Nat) :
    clearArr (P ++ [c]) a = upd (clearArr P a) (c / 64) (clearBit (clearArr P a (c / 64)) (c % 64)) := by
  unfold clearArr
  rw [List.foldl_append]
  rfl

theorem testBit_clear {w bit j : Nat} (hj : j < 64) (hb : bit < 64) : (clearBit w bit).testBit j = (w.testBit j && decide (j ≠ bit)) := by
  unfold clearBit
  rw [Nat.testBit_and]
  congr 1
  have : (2 ^ 64 - 1 - 2 ^ bit) = 2 ^ 64 - (2 ^ bit + 1) := by omega
  rw [this, Nat.testBit_two_pow_sub_succ (Nat.pow_lt_pow_right (by decide) hb), Nat.testBit_two_pow]
  by_cases h : j = bit
  · simp [h]
  · simp [h, hj]
    exact fun e => h e.symm

/-- the bits `P` are cleared and no other -/
theorem clearArr_bit (P : List Nat) (a : Nat → Nat) (c : Nat) :
    (clearArr P a (c / 64)).testBit (c % 64) = ((a (c / 64)).testBit (c % 64) && decide (c ∉ P)) := by
  induction P generalizing a with
  | nil => simp [clearArr]
  | cons x P ih =>
    have : clearArr (x :: P) a = clearArr P (upd a (x / 64) (clearBit (a (x / 64)) (x % 64))) := rfl
    rw [this, ih]
    have hx := Nat.div_add_mod x 64
    have hc := Nat.div_add_mod c 64
    unfold upd
    by_cases hd : c / 64 = x / 64
    · rw [if_pos hd, testBit_clear (Nat.mod_lt _ (by decide)) (Nat.mod_lt _ (by decide)), hd]
      by_cases hcx : c = x
      · subst hcx; simp
      · have : c % 64 ≠ x % 64 := by omega
        simp [hcx, this]
    · rw [if_neg hd]
      have : c ≠ x := by intro e; subst e; exact hd rfl
      simp [this]

/-- the bits beyond the bitset stay as they are -/
theorem clearArr_other (P : List Nat) (a : Nat → Nat) (w : Nat) (h : ∀ c ∈ P, c / 64 ≠ w) : clearArr P a w = a w := by
  induction P generalizing a with
  | nil => rfl
  | cons x P ih =>
    have : clearArr (x :: P) a = clearArr P (upd a (x / 64) (clearBit (a (x / 64)) (x % 64))) := rfl
    rw [this, ih _ (fun c hc => h c (by simp [hc]))]
    unfold upd
    rw [if_neg (fun e => h x (by simp) e.symm)]

section
variable {epb nr : Nat} {bs : List Nat} {mem0 : Nat → Option ABlock} {a : Nat → Nat}

/-- the updater's current block -/
structure Cur2 (epb nr : Nat) (bs : List Nat) (mem0 : Nat → Option ABlock) (a : Nat → Nat) (P : List Nat) (bb : BitBlock) (mem : Nat → Option ABlock) : Prop where
  at_ : bb.index < bs.length
  begin : bb.bitBegin = bb.index * epb * 64
  block : bb.block = ⟨epb, chunk epb nr (clearArr P a) bb.index⟩
  mem : ∃ Q, (∀ c ∈ Q, c ∈ P) ∧ (∀ w, w < nr → w / epb ≠ bb.index → clearArr Q a w = clearArr P a w) ∧ Holds epb nr bs mem0 mem (clearArr Q a)

theorem Cur2.flush {P : List Nat} {bb : BitBlock} {mem : Nat → Option ABlock} (he : 0 < epb) (hn : bs.Nodup) (h : Cur2 epb nr bs mem0 a P bb mem) {b : Nat}
    (hb : bs[bb.index]? = some b) : Holds epb nr bs mem0 (fun x => if x = b then some bb.block else mem x) (clearArr P a) := by
  obtain ⟨Q, q1, q2, q3⟩ := h.mem
  rw [h.block]
  refine Holds.write hn hb ?_ q3.frame
  intro j b' hj hb'
  rw [q3.each j b' hb']
  refine congrArg (fun l => some (ABlock.mk epb l)) (chunk_congr he ?_)
  intro w hw hwj
  exact q2 w hw (by omega)

/-- what going to another bitmap leads to -/
def At2 (wok : Nat → Bool) (epb nr : Nat) (bs : List Nat) (mem0 : Nat → Option ABlock) (a : Nat → Nat) (P : List Nat) (k : Nat)
    (r : Except (DErr × USt) (BitBlock × USt)) : Prop :=
  match r with
  | .ok (bb, u) => bb.index = k ∧ Cur2 epb nr bs mem0 a P bb u.mem
  | .error (e, u) => e = .err ∧ (∃ k, wok k = false) ∧ ∃ Q, (∀ c ∈ Q, c ∈ P) ∧ Holds epb nr bs mem0 u.mem (clearArr Q a)

theorem nextBitmap_spec (wok : Nat → Bool) (he : 0 < epb) (hn : bs.Nodup) {P : List Nat} {bb : BitBlock} {u : USt} (h : Cur2 epb nr bs mem0 a P bb u.mem)
    (hfull : (bb.index + 1) * epb ≤ nr) (hk : bb.index + 1 < bs.length) : At2 wok epb nr bs mem0 a P (bb.index + 1) (nextBitmap wok bs (some bb) u) := by
  obtain ⟨Q, q1, q2, q3⟩ := h.mem
  have hb : bs[bb.index]? = some bs[bb.index] := List.getElem?_eq_getElem h.at_
  unfold nextBitmap
  simp only [hb]
  unfold USt.write
  by_cases hw : wok u.writes = true
  · rw [if_pos hw]
    have hh := h.flush he hn hb
    have hb2 : bs[bb.index + 1]? = some bs[bb.index + 1] := List.getElem?_eq_getElem hk
    simp only
    rw [hh.load hb2]
    refine ⟨rfl, hk, ?_, rfl, P, fun _ h => h, fun _ _ _ => rfl, hh⟩
    simp only
    rw [h.begin, h.block]
    simp only
    rw [Arr.chunk_length, Nat.min_eq_right (by rw [Nat.add_mul] at hfull; omega), Nat.add_mul, Nat.one_mul, Nat.add_mul]
  · rw [if_neg hw]
    exact ⟨rfl, ⟨_, by simpa using hw⟩, Q, q1, q3⟩

theorem inside (he : 0 < epb) {P : List Nat} {bb : BitBlock} {mem : Nat → Option ABlock} (h : Cur2 epb nr bs mem0 a P bb mem) {c : Nat} (hc : c / 64 < nr)
    (hle : bb.index ≤ c / 64 / epb) : (bb.bitBegin ≤ c ∧ bb.bitBegin + bb.block.values.length * 64 > c) ↔ bb.index = c / 64 / epb := by
  have h1 := Nat.div_add_mod c 64
  have h2 := Nat.mod_lt c (show 0 < 64 by decide)
  have h3 := Nat.div_add_mod (c / 64) epb
  have h4 := Nat.mod_lt (c / 64) he
  rw [h.begin, h.block]
  simp only
  rw [Arr.chunk_length]
  constructor
  · intro hin
    apply Nat.le_antisymm hle
    have hlen : min (nr - bb.index * epb) epb ≤ epb := Nat.min_le_right _ _
    have : c / 64 < (bb.index + 1) * epb := by rw [Nat.add_mul]; omega
    exact Nat.lt_succ_iff.mp ((Nat.div_lt_iff_lt_mul he).mpr this)
  · intro e
    rw [e, Nat.mul_comm (c / 64 / epb) epb]
    omega

theorem getBitmap_spec (wok : Nat → Bool) (he : 0 < epb) (hn : bs.Nodup) (hat : ∀ w, w < nr → w / epb < bs.length) {P : List Nat} {c : Nat} (hc : c / 64 < nr) :
    ∀ (fuel : Nat) (bb : BitBlock) (u : USt), Cur2 epb nr bs mem0 a P bb u.mem → bb.index ≤ c / 64 / epb → c / 64 / epb ≤ bb.index + fuel →
    At2 wok epb nr bs mem0 a P (c / 64 / epb) (getBitmap wok bs c fuel (some bb) u) := by
  intro fuel
  induction fuel with
  | zero =>
    intro bb u h h1 h2
    have hi : bb.index = c / 64 / epb := by omega
    unfold getBitmap
    simp only
    rw [if_pos ((inside he h hc h1).mpr hi)]
    exact ⟨hi, h⟩
  | succ fuel ih =>
    intro bb u h h1 h2
    unfold getBitmap
    simp only
    by_cases hi : bb.index = c / 64 / epb
    · rw [if_pos ((inside he h hc h1).mpr hi)]
      exact ⟨hi, h⟩
    · rw [if_neg (fun h' => hi ((inside he h hc h1).mp h'))]
      have hle : bb.index + 1 ≤ c / 64 / epb := by omega
      have hk := hat _ hc
      have hfull : (bb.index + 1) * epb ≤ nr := by
        have := Nat.mul_le_mul_right epb hle
        have := Nat.div_mul_le_self (c / 64) epb
        omega
      have hs := nextBitmap_spec wok he hn h hfull (by omega)
      revert hs
      cases hr : nextBitmap wok bs (some bb) u with
      | error e => obtain ⟨e, u'⟩ := e; exact fun hs => hs
      | ok r =>
        obtain ⟨bb', u'⟩ := r
        intro hs
        simp only
        exact ih bb' u' hs.2 (by rw [hs.1]; exact hle) (by rw [hs.1]; omega)

/-- the updater before or after its first bit -/
def Open2 (epb nr : Nat) (bs : List Nat) (mem0 : Nat → Option ABlock) (a : Nat → Nat) (P : List Nat) (cur : Option BitBlock) (mem : Nat → Option ABlock) : Prop :=
  match cur with
  | none => P = [] ∧ Holds epb nr bs mem0 mem a
  | some bb => Cur2 epb nr bs mem0 a P bb mem ∧ ∃ p ∈ P, bb.index = p / 64 / epb

theorem getBitmap_any (wok : Nat → Bool) (he : 0 < epb) (hn : bs.Nodup) (hat : ∀ w, w < nr → w / epb < bs.length) {P : List Nat} {c : Nat} (hc : c / 64 < nr)
    (hP : ∀ p ∈ P, p ≤ c) {cur : Option BitBlock} {u : USt} (h : Open2 epb nr bs mem0 a P cur u.mem) :
    At2 wok epb nr bs mem0 a P (c / 64 / epb) (getBitmap wok bs c (bs.length + 1) cur u) := by
  have hk := hat _ hc
  cases cur with
  | some bb =>
    obtain ⟨h1, p, hp, hb⟩ := h
    exact getBitmap_spec wok he hn hat hc _ bb u h1 (by rw [hb]; exact Nat.div_le_div_right (Nat.div_le_div_right (hP p hp))) (by omega)
  | none =>
    obtain ⟨rfl, h⟩ := h
    unfold getBitmap
    simp only
    unfold nextBitmap
    simp only
    have hpos : 0 < bs.length := Nat.lt_of_le_of_lt (Nat.zero_le _) hk
    rw [h.load (List.getElem?_eq_getElem hpos)]
    simp only
    refine getBitmap_spec wok he hn hat hc _ _ u ⟨hpos, by simp, rfl, [], fun _ h => h, fun _ _ _ => rfl, h⟩ (Nat.zero_le _) ?_
    simp only
    omega

theorem update2_spec (wok : Nat → Bool) (he : 0 < epb) (hn : bs.Nodup) (hat : ∀ w, w < nr → w / epb < bs.length) :
    ∀ (cs P : List Nat) (cur : Option BitBlock) (u : USt), Inc (P ++ cs) → (∀ c ∈ cs, c / 64 < nr) → Open2 epb nr bs mem0 a P cur u.mem →
    Updated wok (fun Q m => Holds epb nr bs mem0 m (clearArr Q a)) (P ++ cs) (update2 wok bs cur cs u) := by
  intro cs
  induction cs with
  | nil =>
    intro P cur u hinc hlt h
    rw [List.append_nil]
    cases cur with
    | none =>
      obtain ⟨rfl, h⟩ := h
      exact h
    | some bb =>
      obtain ⟨h, -⟩ := h
      obtain ⟨Q, q1, q2, q3⟩ := h.mem
      have hat' := h.at_
      have hb : bs[bb.index]? = some bs[bb.index] := List.getElem?_eq_getElem hat'
      unfold update2
      simp only [hb]
      unfold USt.write
      by_cases hw : wok u.writes = true
      · rw [if_pos hw]; exact h.flush he hn hb
      · rw [if_neg hw]
        exact ⟨rfl, ⟨_, by simpa using hw⟩, Q, q1, q3⟩
  | cons c cs ih =>
    intro P cur u hinc hlt h
    have hc : c / 64 < nr := hlt c (by simp)
    have hP : ∀ p ∈ P, p ≤ c := fun p hp => Nat.le_of_lt ((List.pairwise_append.mp hinc).2.2 p hp c (by simp))
    have hs := getBitmap_any wok he hn hat hc hP h
    have hu : update2 wok bs cur (c :: cs) u = (match getBitmap wok bs c (bs.length + 1) cur u with
      | .error e => .error e
      | .ok (bb, u) =>
        match bb.block.values[(c - bb.bitBegin) / 64]? with
        | none => .error (.panic, u)
        | some w =>
          update2 wok bs (some { bb with block := { bb.block with values := bb.block.values.set ((c - bb.bitBegin) / 64) (clearBit w (c % 64)) } }) cs u) := by
      cases cur <;> rfl
    rw [hu]
    revert hs
    cases getBitmap wok bs c (bs.length + 1) cur u with
    | error e =>
      obtain ⟨e, u'⟩ := e
      rintro ⟨h1, h2, Q, q1, q2⟩
      exact ⟨h1, h2, Q, fun x hx => List.mem_append_left _ (q1 x hx), q2⟩
    | ok r =>
      obtain ⟨bb, u'⟩ := r
      rintro ⟨hi, hcur⟩
      have h3 := Nat.div_add_mod (c / 64) epb
      have h4 := Nat.mod_lt (c / 64) he
      have hword : (c - bb.bitBegin) / 64 = c / 64 % epb := by
        rw [hcur.begin, hi, Nat.mul_comm (c / 64 / epb) epb]
        omega
      have hv : bb.block.values[c / 64 % epb]? = some (clearArr P a (c / 64)) := by
        rw [hcur.block, hi]
        exact Arr.chunk_get _ hc he
      simp only
      rw [hword, hv]
      simp only
      have happ : P ++ c :: cs = (P ++ [c]) ++ cs := by simp
      rw [happ] at hinc ⊢
      refine ih (P ++ [c]) _ u' hinc (fun x hx => hlt x (by simp [hx])) ⟨⟨hcur.at_, hcur.begin, ?_, ?_⟩, c, by simp, hi⟩
      · simp only
        rw [hcur.block]
        simp only
        rw [chunk_set _ he h4, clearArr_snoc]
        refine congrArg (ABlock.mk epb) (chunk_congr he ?_)
        intro x _ _
        rw [hi, Nat.mul_comm (c / 64 / epb) epb, h3]
      · obtain ⟨Q, q1, q2, q3⟩ := hcur.mem
        refine ⟨Q, fun x hx => List.mem_append_left _ (q1 x hx), ?_, q3⟩
        intro w hw hne
        simp only at hne
        rw [q2 w hw hne, clearArr_snoc]
        unfold upd
        rw [if_neg]
        intro e
        rw [e] at hne
        exact hne hi.symm

end

theorem zip_snd (blocks : List Nat) : ((List.range blocks.length).zip blocks).map (·.2) = blocks := List.map_snd_zip (by simp)

/-- C35, version 2: the update clears the bits of the cleaned blocks; if a write fails, of some of them. -/
theorem updateV2_stored (wok : Nat → Bool) {epb epb4 nr n : Nat} {a : Nat → Nat} {root : Nat} {s : ASt Nat} {h : Nat} {t : Tree Nat h} {blocks : List Nat}
    (he : 0 < epb) (hs : Stored epb nr n a root s h t blocks) (hn : blocks.Nodup) (cleaned : List Nat) (hc : Inc cleaned) (hlt : ∀ c ∈ cleaned, c / 64 < nr) :
    Updated wok (fun Q m => Holds epb nr blocks (devOf epb epb4 n s).words m (clearArr Q a)) cleaned (updateV2 wok (devOf epb epb4 n s) root cleaned) := by
  have hb := LW.btreeToMap_contents (Stored.clean hs)
  rw [hs.blk, hs.contents] at hb
  unfold updateV2
  have : LW.btreeToMap (devOf epb epb4 n s).rd (devOf epb epb4 n s).nr root = some ((List.range blocks.length).zip blocks) := hb
  rw [this]
  simp only
  rw [if_pos (by rw [List.map_fst_zip (by simp)]; simp), zip_snd]
  exact update2_spec wok he hn (fun w hw => by rw [hs.count, Arr.lt_divUp he]; have := Nat.div_mul_le_self w epb; omega) cleaned [] none ⟨_, 0⟩
    (by simpa using hc) hlt ⟨rfl, stored_holds (epb4 := epb4) hs⟩

end Verif.Wb
