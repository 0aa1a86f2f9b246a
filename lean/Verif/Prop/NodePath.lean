import Verif.Model.NodePath
import Verif.Prop.Pack

/-!
# C54: node paths printed by one tool are understood by another
-/

namespace Verif.NPath

open Verif.Pack

set_option maxRecDepth 40000 in
theorem val_sym : ∀ n, n < 64 → val (sym n) = some n := by decide

theorem sym_ne : ∀ n, n < 64 → sym n ≠ '=' := by decide

theorem byte_eq {a : UInt8} {n : Nat} (h : n = a.toNat) : UInt8.ofNat n = a := by rw [h]; exact UInt8.ofNat_toNat

theorem group_one (a : UInt8) : group (sym (a.toNat / 4)) (sym (a.toNat % 4 * 16)) '=' '=' = some [a] := by
  have ha := a.toNat_lt
  unfold group
  rw [val_sym _ (by omega), val_sym _ (by omega)]
  simp only [and_self, if_true]
  rw [if_pos (by omega), byte_eq (a := a) (by omega)]

theorem group_two (a b : UInt8) : group (sym (a.toNat / 4)) (sym (a.toNat % 4 * 16 + b.toNat / 16)) (sym (b.toNat % 16 * 4)) '=' = some [a, b] := by
  have ha := a.toNat_lt
  have hb := b.toNat_lt
  unfold group
  rw [val_sym _ (by omega), val_sym _ (by omega), val_sym _ (by omega)]
  simp only [sym_ne (b.toNat % 16 * 4) (by omega), false_and, if_false, if_true]
  rw [if_pos (by omega), byte_eq (a := a) (by omega), byte_eq (a := b) (by omega)]

theorem group_three (a b c : UInt8) : group (sym (a.toNat / 4)) (sym (a.toNat % 4 * 16 + b.toNat / 16)) (sym (b.toNat % 16 * 4 + c.toNat / 64)) (sym (c.toNat % 64)) =
    some [a, b, c] := by
  have ha := a.toNat_lt
  have hb := b.toNat_lt
  have hc := c.toNat_lt
  unfold group
  rw [val_sym _ (by omega), val_sym _ (by omega), val_sym _ (by omega), val_sym _ (by omega)]
  simp only [sym_ne (b.toNat % 16 * 4 + c.toNat / 64) (by omega), sym_ne (c.toNat % 64) (by omega), false_and, if_false]
  rw [byte_eq (a := a) (by omega), byte_eq (a := b) (by omega), byte_eq (a := c) (by omega)]

/-- the text encoding is lossless -/
theorem decode_encode64 : ∀ bs : Bytes, decode64 (encode64 bs) = some bs
  | [] => rfl
  | [a] => by unfold encode64 decode64; rw [group_one, decode64]; rfl
  | [a, b] => by unfold encode64 decode64; rw [group_two, decode64]; rfl
  | a :: b :: c :: r => by unfold encode64 decode64; rw [group_three, decode_encode64 r]; rfl

theorem encode64_length : ∀ bs : Bytes, (encode64 bs).length = (bs.length + 2) / 3 * 4
  | [] => rfl
  | [a] => by simp [encode64]
  | [a, b] => by simp [encode64]
  | a :: b :: c :: r => by
    unfold encode64
    simp only [List.length_cons, encode64_length r]
    omega

/-- a path the code can express: few enough entries for the count byte -/
def Short (path : List Nat) : Prop := path.length ≤ 127 ∨ (path.length = 128 ∧ path.head? = some 0)

theorem pathBytes_some {path : List Nat} (hn : ∀ n ∈ path, n < 2 ^ 64) (hs : Short path) : ∃ (zero : Bool) (rest : List Nat) (bs : Bytes), packU64s rest = some bs ∧ rest.length ≤ 127 ∧
    path = (if zero then 0 :: rest else rest) ∧ (∀ n ∈ rest, n < 2 ^ 64) ∧ pathBytes path = some (UInt8.ofNat (rest.length * 2 + (if zero then 0 else 1)) :: bs) := by
  have hlen : path.length < 256 := by rcases hs with h | h <;> omega
  have key : ∀ p : List Nat, (∀ n ∈ p, n < 2 ^ 64) → p.length < 256 → ∃ bs, packU64s p = some bs := by
    intro p hp hl
    obtain ⟨bs, h, -⟩ := packU64s_lossless p hp (by omega)
    exact ⟨bs, h⟩
  unfold pathBytes
  rw [if_pos hlen]
  by_cases h0 : ∃ r, path = 0 :: r
  · obtain ⟨r, rfl⟩ := h0
    obtain ⟨bs, hb⟩ := key r (fun n hn' => hn n (by simp [hn'])) (by simp at hlen; omega)
    have hr : r.length ≤ 127 := by
      rcases hs with h | h
      · simp at h; omega
      · have := h.1; simp at this; omega
    refine ⟨true, r, bs, hb, hr, rfl, fun n hn' => hn n (by simp [hn']), ?_⟩
    simp only [hb, Option.map_some, List.length_cons, Nat.add_sub_cancel, if_true, Nat.add_zero]
    rw [Nat.mod_eq_of_lt (by omega)]
  · obtain ⟨bs, hb⟩ := key path hn hlen
    have hr : path.length ≤ 127 := by
      rcases hs with h | h
      · exact h
      · exfalso
        cases path with
        | nil => cases h.2
        | cons x l =>
          have := h.2
          simp at this
          exact h0 ⟨l, by rw [this]⟩
    refine ⟨false, path, bs, hb, hr, rfl, hn, ?_⟩
    cases path with
    | nil => simp only [hb, Option.map_some]; rfl
    | cons y l =>
      cases y with
      | zero => exact absurd ⟨l, rfl⟩ h0
      | succ y =>
        simp only [hb, Option.map_some, Bool.false_eq_true, if_false]
        rw [Nat.mod_eq_of_lt (by omega)]

/-- C54: a path with few enough entries is always encoded; if its encoding is at most 126 bytes long it is decoded to itself, whatever the buffer held before. -/
theorem path_roundtrip_partial (path : List Nat) (hn : ∀ n ∈ path, n < 2 ^ 64) (hs : Short path) : ∃ bytes, pathBytes path = some bytes ∧ encodePath path = some (encode64 bytes) ∧
    ∀ junk, decodePath junk (encode64 bytes) = if bytes.length ≤ 126 then .ok path else .panic := by
  obtain ⟨zero, rest, bs, hb, hr, hpath, hrn, hpb⟩ := pathBytes_some hn hs
  refine ⟨_, hpb, by unfold encodePath; rw [hpb]; rfl, fun junk => ?_⟩
  obtain ⟨bs', hb', hun⟩ := packU64s_lossless rest hrn (by omega)
  rw [hb] at hb'
  cases hb'
  generalize hc : UInt8.ofNat (rest.length * 2 + (if zero then 0 else 1)) = c
  have hcn : c.toNat = rest.length * 2 + (if zero then 0 else 1) := by
    rw [← hc, UInt8.toNat_ofNat']
    refine Nat.mod_eq_of_lt ?_
    cases zero <;> simp <;> omega
  unfold decodePath
  rw [encode64_length, if_neg (by omega)]
  by_cases hle : (c :: bs).length ≤ 126
  · rw [if_pos hle, if_neg (by omega), decode_encode64]
    simp only [List.length_cons, List.cons_append]
    simp only [List.length_cons] at hle
    have e3 : (bs.length + 1 + 2) / 3 * 4 / 4 * 3 = ((bs.length + 1 + 2) / 3 * 3 - 1) + 1 := by omega
    rw [e3, List.take_succ_cons]
    simp only
    have hlen : bs.length ≤ (bs.length + 1 + 2) / 3 * 3 - 1 := by omega
    rw [show (bs ++ junk).take ((bs.length + 1 + 2) / 3 * 3 - 1) = bs ++ junk.take ((bs.length + 1 + 2) / 3 * 3 - 1 - bs.length) from by rw [List.take_append, List.take_of_length_le hlen]]
    have hdiv : c.toNat / 2 = rest.length := by rw [hcn]; cases zero <;> simp <;> omega
    have hmod : c.toNat % 2 = if zero then 0 else 1 := by rw [hcn]; cases zero <;> simp <;> omega
    have hnum : ∀ junk', pathNumbers (c.toNat / 2) (bs ++ junk') = some rest := by
      intro junk'
      unfold pathNumbers
      rw [hdiv]
      by_cases h0 : rest.length = 0
      · rw [if_pos h0, List.length_eq_zero_iff.mp h0]
      · rw [if_neg h0, hun junk']
        simp only
        have := countP_w64s rest hrn []
        rw [List.append_nil] at this
        rw [this]
        rfl
    rw [hnum]
    simp only
    rw [hmod, hpath]
    cases zero <;> rfl
  · rw [if_neg hle, if_pos (by omega)]

/-! ## How long an encoding can get -/

theorem packW_length {tag n : Nat} {bs : Bytes} (h : packW tag n = some bs) : bs.length ≤ 9 := by
  unfold packW at h
  have key : ∀ k x, ((packTag tag k).map (· ++ leBytes x n)) = some bs → x ≤ 8 → bs.length ≤ 9 := by
    intro k x h hx
    unfold packTag at h
    split at h
    · cases h
      simp only [List.length_append, List.length_cons, List.length_nil, leBytes_length]
      omega
    · cases h
  repeat' split at h
  · exact key _ _ h (by omega)
  · exact key _ _ h (by omega)
  · exact key _ _ h (by omega)
  · exact key _ _ h (by omega)

theorem packTag_length {tag n : Nat} {bs : Bytes} (h : packTag tag n = some bs) : bs.length = 1 := by
  unfold packTag at h
  split at h
  · cases h; rfl
  · cases h

theorem packCnt_length {t t8 n : Nat} {bs : Bytes} (h : packCnt t t8 n = some bs) : bs.length ≤ 2 := by
  unfold packCnt at h
  repeat' split at h
  · have := packTag_length h; omega
  · cases hp : packTag t8 (n / 256) with
    | none => rw [hp] at h; cases h
    | some x =>
      rw [hp] at h
      cases h
      have := packTag_length hp
      simp only [List.length_append, leBytes_length]
      omega
  · cases h

/-- how many numbers an instruction stands for -/
def Delta.size : Delta → Nat
  | .base _ => 1
  | .const n => n
  | .pos _ n => n
  | .neg _ n => n

theorem packDelta_length {d : Delta} {bs : Bytes} (h : packDelta d = some bs) (h1 : 1 ≤ Delta.size d) : bs.length ≤ 9 * Delta.size d := by
  have key : ∀ (t tw delta count : Nat), (do
      let c ← packCount count
      let d ← (if delta < 16 then packTag t delta else packW tw delta)
      some (c ++ d)) = some bs → 1 ≤ count → bs.length ≤ 9 * count := by
    intro t tw delta count h h1
    obtain ⟨c, hc, h⟩ := Option.bind_eq_some_iff.mp h
    obtain ⟨e, he, h⟩ := Option.bind_eq_some_iff.mp h
    cases h
    have he' : e.length ≤ 9 := by
      split at he
      · have := packTag_length he; omega
      · exact packW_length he
    rw [List.length_append]
    unfold packCount at hc
    split at hc
    · cases hc
      simp only [List.length_nil]
      omega
    · have := packCnt_length hc
      omega
  cases d with
  | base n => exact packW_length h
  | const n =>
    have := packCnt_length (show packCnt 5 6 n = some bs from h)
    simp only [Delta.size] at *
    omega
  | pos delta n => exact key 1 2 delta n h h1
  | neg delta n => exact key 3 4 delta n h h1

theorem packDeltas_length : ∀ (ds : List Delta) (bs : Bytes), packDeltas ds = some bs → (∀ d ∈ ds, 1 ≤ Delta.size d) → bs.length ≤ 9 * (ds.map Delta.size).sum := by
  intro ds
  induction ds with
  | nil => intro bs h _; cases h; exact Nat.le_refl _
  | cons d ds ih =>
    intro bs h hs
    unfold packDeltas at h
    obtain ⟨a, ha, h⟩ := Option.bind_eq_some_iff.mp h
    obtain ⟨b, hb, h⟩ := Option.bind_eq_some_iff.mp h
    cases h
    have h1 := packDelta_length ha (hs d (by simp))
    have h2 := ih b hb fun x hx => hs x (by simp [hx])
    rw [List.length_append, List.map_cons, List.sum_cons]
    omega

theorem takeRun_length (p : Nat → Nat → Bool) : ∀ (ns : List Nat) (c : Nat), (takeRun p c ns).1 + (takeRun p c ns).2.length = ns.length := by
  intro ns
  induction ns with
  | nil => intro c; rfl
  | cons n ns ih =>
    intro c
    unfold takeRun
    split
    · have := ih (c + 1)
      simp only [List.length_cons]
      omega
    · simp

theorem takeRun_first {p : Nat → Nat → Bool} {c n : Nat} {ns : List Nat} (h : p c n = true) : 1 ≤ (takeRun p c (n :: ns)).1 := by
  unfold takeRun
  rw [if_pos h]
  simp

theorem toDeltaFrom_size : ∀ (fuel base : Nat) (ns : List Nat) (ds : List Delta), (∀ n ∈ ns, n < 2 ^ 64) → base < 2 ^ 64 → toDeltaFrom fuel base ns = some ds →
    (∀ d ∈ ds, 1 ≤ Delta.size d) ∧ (ds.map Delta.size).sum = ns.length := by
  intro fuel
  induction fuel with
  | zero =>
    intro base ns ds _ _ h
    cases ns with
    | nil => cases h; exact ⟨fun d hd => (by cases hd), rfl⟩
    | cons n ns => cases h
  | succ fuel ih =>
    intro base ns ds hn hb h
    cases ns with
    | nil => cases h; exact ⟨fun d hd => (by cases hd), rfl⟩
    | cons n ns =>
      have hn0 := hn n (by simp)
      unfold toDeltaFrom at h
      have key : ∀ (p : Nat → Nat → Bool) (base' : Nat) (mk : Nat → Delta), p 1 n = true → base' < 2 ^ 64 → (∀ k, Delta.size (mk k) = k) →
          (toDeltaFrom fuel base' (takeRun p 1 (n :: ns)).2).map (mk (takeRun p 1 (n :: ns)).1 :: ·) = some ds →
          (∀ d ∈ ds, 1 ≤ Delta.size d) ∧ (ds.map Delta.size).sum = (n :: ns).length := by
        intro p base' mk hp hb' hm h
        obtain ⟨ds', h', h''⟩ := Option.map_eq_some_iff.mp h
        subst h''
        have hsub : ∀ (l : List Nat) (c : Nat), ∀ x ∈ (takeRun p c l).2, x ∈ l := by
          intro l
          induction l with
          | nil => intro c x hx; cases hx
          | cons y l ihl =>
            intro c x hx
            unfold takeRun at hx
            split at hx
            · exact List.mem_cons.mpr (Or.inr (ihl _ x hx))
            · exact hx
        obtain ⟨i1, i2⟩ := ih base' _ ds' (fun x hx => hn x (hsub _ _ x hx)) hb' h'
        have hl := takeRun_length p (n :: ns) 1
        have hf := takeRun_first (ns := ns) hp
        refine ⟨fun d hd => ?_, ?_⟩
        · rcases List.mem_cons.mp hd with rfl | hd
          · rw [hm]; exact hf
          · exact i1 d hd
        · rw [List.map_cons, List.sum_cons, i2, hm]
          exact hl
      split at h
      · refine key _ _ (Delta.neg (base - n)) ?_ (Nat.mod_lt _ (by decide)) (fun _ => rfl) h
        simp only [wadd, wmul, beq_iff_eq, Nat.one_mul]
        rw [Nat.mod_eq_of_lt (a := base - n) (by omega), Nat.mod_eq_of_lt (by omega)]
        omega
      · split at h
        · rename_i e
          refine key _ _ Delta.const ?_ hb (fun _ => rfl) h
          simp [e]
        · refine key _ _ (Delta.pos (n - base)) ?_ (Nat.mod_lt _ (by decide)) (fun _ => rfl) h
          simp only [wadd, wmul, beq_iff_eq, Nat.one_mul]
          rw [Nat.mod_eq_of_lt (a := n - base) (by omega), Nat.mod_eq_of_lt (by omega)]
          omega

theorem packU64s_length {ns : List Nat} (hn : ∀ n ∈ ns, n < 2 ^ 64) {bs : Bytes} (h : packU64s ns = some bs) : bs.length ≤ 9 * ns.length := by
  unfold packU64s at h
  obtain ⟨ds, h1, h2⟩ := Option.bind_eq_some_iff.mp h
  cases ns with
  | nil => cases h1; cases h2; exact Nat.le_refl _
  | cons n ns =>
    unfold toDelta at h1
    obtain ⟨ds', h3, h4⟩ := Option.map_eq_some_iff.mp h1
    subst h4
    obtain ⟨i1, i2⟩ := toDeltaFrom_size _ _ _ _ (fun x hx => hn x (by simp [hx])) (hn n (by simp)) h3
    have := packDeltas_length _ _ h2 (by
      intro d hd
      rcases List.mem_cons.mp hd with rfl | hd
      · exact Nat.le_refl 1
      · exact i1 d hd)
    rw [List.map_cons, List.sum_cons, i2] at this
    simp only [Delta.size, List.length_cons] at *
    omega

/-- C54: every path of at most 13 blocks below the superblock (whose 0 is not counted) is decoded to itself. -/
theorem path_roundtrip (path : List Nat) (hn : ∀ n ∈ path, n < 2 ^ 64) (hl : path.length ≤ 13 ∨ (path.length = 14 ∧ path.head? = some 0)) :
    ∃ text, encodePath path = some text ∧ ∀ junk, decodePath junk text = .ok path := by
  have hs : Short path := Or.inl (by rcases hl with h | h <;> omega)
  obtain ⟨zero, rest, bs, hb, hr, hpath, hrn, hpb⟩ := pathBytes_some hn hs
  obtain ⟨bytes, h1, h2, h3⟩ := path_roundtrip_partial path hn hs
  refine ⟨_, h2, fun junk => ?_⟩
  rw [h3, if_pos]
  rw [hpb] at h1
  cases h1
  have := packU64s_length hrn hb
  have hr13 : rest.length ≤ 13 := by
    cases zero with
    | true =>
      simp only [if_true] at hpath
      rw [hpath] at hl
      simp only [List.length_cons] at hl
      omega
    | false =>
      simp only [Bool.false_eq_true, if_false] at hpath
      rw [hpath] at hl hpb
      rcases hl with h | ⟨h, h'⟩
      · omega
      · exfalso
        cases rest with
        | nil => cases h'
        | cons x l =>
          simp only [List.head?_cons, Option.some.injEq] at h'
          subst h'
          unfold pathBytes at hpb
          rw [if_pos (by omega)] at hpb
          simp only at hpb
          obtain ⟨b', hb', hb''⟩ := Option.map_eq_some_iff.mp hpb
          injection hb'' with e1 e2
          have e3 := congrArg UInt8.toNat e1
          rw [UInt8.toNat_ofNat', UInt8.toNat_ofNat'] at e3
          simp only [Bool.false_eq_true, if_false] at e3
          omega
  simp only [List.length_cons]
  omega

/-- a path to a mapping leaf, as the tools print it -/
example : encodePath [0, 7, 11, 4] = some "BgEHFDc=".toList := by decide

/-- and one that meets the hypotheses of `path_roundtrip` -/
example : (∀ n ∈ [0, 7, 11, 4], n < 2 ^ 64) ∧ [0, 7, 11, 4].length ≤ 13 := by decide

/-! ## Findings -/

set_option maxRecDepth 20000 in
/-- **Finding.**  A path of 128 blocks that does not start at the superblock decodes to the empty path: the count byte wraps. -/
theorem path_wrap_refuted : ∃ text, encodePath (List.replicate 128 1) = some text ∧ ∀ junk, decodePath junk text = .ok [] := by
  refine ⟨_, show encodePath (List.replicate 128 1) = some (encode64 [1, 1, 1, 0x60, 127]) from by decide, fun junk => ?_⟩
  unfold decodePath
  rw [encode64_length, if_neg (by decide), if_neg (by decide), decode_encode64]
  rfl

set_option maxRecDepth 20000 in
/-- **Finding.**  A path of 15 blocks with large differences is encoded, but decoding it panics: the buffer has 128 bytes. -/
theorem path_long_refuted : ∃ path text, path.length = 15 ∧ (∀ n ∈ path, n < 2 ^ 64) ∧ encodePath path = some text ∧ ∀ junk, decodePath junk text = .panic := by
  have hn : ∀ n ∈ (List.range 15).map (fun k => 2 ^ 40 * (k + 1) * (k + 1)), n < 2 ^ 64 := by decide
  obtain ⟨bytes, h1, h2, h3⟩ := path_roundtrip_partial _ hn (Or.inl (by decide))
  refine ⟨_, _, by decide, hn, h2, fun junk => ?_⟩
  rw [h3, if_neg]
  have : (pathBytes ((List.range 15).map (fun k => 2 ^ 40 * (k + 1) * (k + 1)))).map List.length = some 136 := by decide
  rw [h1] at this
  simp only [Option.map_some, Option.some.injEq] at this
  omega

/-- **Finding.**  Text of a length that is no multiple of four makes the decoder panic instead of reporting bad input. -/
theorem path_text_panics (junk : Bytes) (text : List Char) (h : text.length % 4 ≠ 0) : decodePath junk text = .panic := if_pos h

end Verif.NPath
