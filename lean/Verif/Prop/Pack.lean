import Verif.Model.Pack
import Verif.Lemmas.Parse

/-!
# C30, C31: packing is lossless

The specification is plain: unpacking what was packed gives the original, and leaves exactly what followed it in the stream.
-/

namespace Verif.Pack

/-! ### What deltas stand for -/

/-- `n` times: apply `f` and note the result -/
def runOf (f : Nat → Nat) : Nat → Nat → List Nat
  | 0, _ => []
  | n + 1, b => f b :: runOf f n (f b)

def iter (f : Nat → Nat) : Nat → Nat → Nat
  | 0, b => b
  | n + 1, b => iter f n (f b)

/-- numbers a delta stands for -/
def Delta.nums (b : Nat) : Delta → List Nat
  | .base n => [n]
  | .const c => runOf id c b
  | .pos d c => runOf (wadd · d) c b
  | .neg d c => runOf (wsub · d) c b

def Delta.after (b : Nat) : Delta → Nat
  | .base n => n
  | .const _ => b
  | .pos d c => iter (wadd · d) c b
  | .neg d c => iter (wsub · d) c b

def expand (b : Nat) : List Delta → List Nat
  | [] => []
  | d :: ds => d.nums b ++ expand (d.after b) ds

def afterAll (b : Nat) : List Delta → Nat
  | [] => b
  | d :: ds => afterAll (d.after b) ds

/-- operands are 64-bit, counts positive and at most `L` -/
def Delta.Fits (L : Nat) : Delta → Prop
  | .base n => n < 2 ^ 64
  | .const c => 1 ≤ c ∧ c ≤ L
  | .pos d c => d < 2 ^ 64 ∧ 1 ≤ c ∧ c ≤ L
  | .neg d c => d < 2 ^ 64 ∧ 1 ≤ c ∧ c ≤ L

theorem runOf_length (f : Nat → Nat) (n : Nat) : ∀ b, (runOf f n b).length = n := by
  induction n with
  | zero => intro b; rfl
  | succ n ih => intro b; simp [runOf, ih]

theorem iter_id (n : Nat) : ∀ b, iter id n b = b := by
  induction n with
  | zero => intro b; rfl
  | succ n ih => intro b; exact ih b

theorem nums_pos {L : Nat} {d : Delta} (h : d.Fits L) (b : Nat) : 1 ≤ (d.nums b).length := by
  cases d <;> simp only [Delta.nums, runOf_length, Delta.Fits, List.length_cons, List.length_nil] at * <;> omega

/-! ### `to_delta` -/

theorem wadd_step (b0 j d : Nat) : wadd (wadd b0 (wmul j d)) d = wadd b0 (wmul (j + 1) d) := by
  unfold wadd wmul
  rw [Nat.add_mul, Nat.one_mul]
  generalize j * d = x
  omega

theorem wsub_step (b0 j d : Nat) (hd : d < 2 ^ 64) : wsub (wsub b0 (wmul j d)) d = wsub b0 (wmul (j + 1) d) := by
  unfold wsub wmul
  rw [Nat.add_mul, Nat.one_mul]
  generalize j * d = x
  omega

theorem takeRun_pos {b0 d : Nat} (hb : b0 < 2 ^ 64) (ns : List Nat) : ∀ j,
    let r := takeRun (fun count m => m == wadd b0 (wmul count d)) (j + 1) ns
    ns = runOf (wadd · d) r.1 (wadd b0 (wmul j d)) ++ r.2 ∧ iter (wadd · d) r.1 (wadd b0 (wmul j d)) = wadd b0 (wmul (j + r.1) d) ∧
    r.1 + r.2.length = ns.length ∧ (∀ m ∈ r.2, m ∈ ns) := by
  induction ns with
  | nil => intro j; exact ⟨rfl, rfl, rfl, by simp [takeRun]⟩
  | cons n ns ih =>
    intro j
    simp only [takeRun]
    by_cases h : n = wadd b0 (wmul (j + 1) d)
    · rw [if_pos (by simpa using h)]
      obtain ⟨h1, h2, h3, h4⟩ := ih (j + 1)
      simp only [runOf, iter, wadd_step, List.length_cons]
      refine ⟨?_, ?_, by omega, fun m hm => by simp [h4 m hm]⟩
      · rw [List.cons_append, ← h1, ← h]
      · rw [h2]; congr 2; omega
    · rw [if_neg (by simpa using h)]
      exact ⟨rfl, rfl, by simp, fun m hm => hm⟩

theorem takeRun_neg {b0 d : Nat} (hb : b0 < 2 ^ 64) (hd : d < 2 ^ 64) (ns : List Nat) : (∀ n ∈ ns, n < 2 ^ 64) → ∀ j,
    let r := takeRun (fun count m => wadd m (wmul count d) == b0) (j + 1) ns
    ns = runOf (wsub · d) r.1 (wsub b0 (wmul j d)) ++ r.2 ∧ iter (wsub · d) r.1 (wsub b0 (wmul j d)) = wsub b0 (wmul (j + r.1) d) ∧
    r.1 + r.2.length = ns.length ∧ (∀ m ∈ r.2, m ∈ ns) := by
  induction ns with
  | nil => intro _ j; exact ⟨rfl, rfl, rfl, by simp [takeRun]⟩
  | cons n ns ih =>
    intro hn j
    simp only [takeRun]
    by_cases h : wadd n (wmul (j + 1) d) = b0
    · rw [if_pos (by simpa using h)]
      obtain ⟨h1, h2, h3, h4⟩ := ih (fun m hm => hn m (by simp [hm])) (j + 1)
      have hn0 := hn n (by simp)
      have h' : n = wsub b0 (wmul (j + 1) d) := by
        unfold wadd at h
        unfold wsub
        have : wmul (j + 1) d < 2 ^ 64 := Nat.mod_lt _ (by decide)
        omega
      simp only [runOf, iter, wsub_step _ _ _ hd, List.length_cons]
      refine ⟨?_, ?_, by omega, fun m hm => by simp [h4 m hm]⟩
      · rw [List.cons_append, ← h1, ← h']
      · rw [h2]; congr 2; omega
    · rw [if_neg (by simpa using h)]
      exact ⟨rfl, rfl, by simp, fun m hm => hm⟩

theorem takeRun_const {b0 : Nat} (ns : List Nat) : ∀ j,
    let r := takeRun (fun _ m => m == b0) j ns
    ns = runOf id r.1 b0 ++ r.2 ∧ r.1 + r.2.length = ns.length ∧ (∀ m ∈ r.2, m ∈ ns) := by
  induction ns with
  | nil => intro j; exact ⟨rfl, rfl, by simp [takeRun]⟩
  | cons n ns ih =>
    intro j
    simp only [takeRun]
    by_cases h : n = b0
    · rw [if_pos (by simpa using h)]
      obtain ⟨h1, h2, h3⟩ := ih (j + 1)
      simp only [runOf, id, List.length_cons]
      refine ⟨?_, by omega, fun m hm => by simp [h3 m hm]⟩
      rw [List.cons_append, ← h, h, ← h1]
    · rw [if_neg (by simpa using h)]
      exact ⟨rfl, by simp, fun m hm => hm⟩

theorem takeRun_first {p : Nat → Nat → Bool} {c n : Nat} {ns : List Nat} (h : p c n = true) : 1 ≤ (takeRun p c (n :: ns)).1 := by
  simp only [takeRun, h, if_true]; omega

theorem toDeltaFrom_spec (L : Nat) (fuel : Nat) : ∀ base ns, ns.length ≤ fuel → ns.length ≤ L → base < 2 ^ 64 →
    (∀ n ∈ ns, n < 2 ^ 64) →
    ∃ ds, toDeltaFrom fuel base ns = some ds ∧ expand base ds = ns ∧ ∀ d ∈ ds, d.Fits L := by
  induction fuel with
  | zero =>
    intro base ns hl _ _ _
    cases ns with
    | nil => exact ⟨[], rfl, rfl, by simp⟩
    | cons n ns => simp at hl
  | succ fuel ih =>
    intro base ns hl hL hb hn
    cases ns with
    | nil => exact ⟨[], rfl, rfl, by simp⟩
    | cons n ns =>
      have hn0 := hn n (by simp)
      unfold toDeltaFrom
      split
      · next hlt =>
        have hd : base - n < 2 ^ 64 := by omega
        have hr := takeRun_neg hb hd (n :: ns) hn 0
        have h1 := takeRun_first (p := fun count m => wadd m (wmul count (base - n)) == base) (c := 1) (n := n) (ns := ns) (by
          simp only [beq_iff_eq]; unfold wadd wmul; rw [Nat.one_mul]; omega)
        simp only [Nat.zero_add] at hr ⊢
        generalize takeRun (fun count m => wadd m (wmul count (base - n)) == base) 1 (n :: ns) = r at hr h1 ⊢
        obtain ⟨r1, r2, r3, r4⟩ := hr
        have hb0 : wsub base (wmul 0 (base - n)) = base := by unfold wsub wmul; rw [Nat.zero_mul]; omega
        rw [hb0] at r1 r2
        obtain ⟨ds, e1, e2, e3⟩ := ih (wsub base (wmul (base - n) r.1)) r.2 (by omega) (by omega)
          (Nat.mod_lt _ (by decide)) (fun m hm => hn m (r4 m hm))
        refine ⟨.neg (base - n) r.1 :: ds, by simp only [e1, Option.map_some], ?_, ?_⟩
        · rw [expand, Delta.nums, Delta.after, r2, show wmul r.1 (base - n) = wmul (base - n) r.1 by unfold wmul; rw [Nat.mul_comm], e2, ← r1]
        · intro d hd'
          rcases List.mem_cons.mp hd' with rfl | hd'
          · exact ⟨hd, h1, by omega⟩
          · exact e3 d hd'
      · split
        · next hlt heq =>
          have hr := takeRun_const (b0 := base) (n :: ns) 1
          have h1 := takeRun_first (p := fun _ m => m == base) (c := 1) (n := n) (ns := ns) (by simpa using heq)
          simp only at hr
          generalize takeRun (fun _ m => m == base) 1 (n :: ns) = r at hr h1
          obtain ⟨r1, r3, r4⟩ := hr
          obtain ⟨ds, e1, e2, e3⟩ := ih base r.2 (by omega) (by omega) hb (fun m hm => hn m (r4 m hm))
          refine ⟨.const r.1 :: ds, by simp only [e1, Option.map_some], ?_, ?_⟩
          · rw [expand, Delta.nums, Delta.after, e2, ← r1]
          · intro d hd'
            rcases List.mem_cons.mp hd' with rfl | hd'
            · exact ⟨h1, by omega⟩
            · exact e3 d hd'
        · next hlt heq =>
          have hd : n - base < 2 ^ 64 := by omega
          have hr := takeRun_pos (d := n - base) hb (n :: ns) 0
          have h1 := takeRun_first (p := fun count m => m == wadd base (wmul count (n - base))) (c := 1) (n := n) (ns := ns) (by
            simp only [beq_iff_eq]; unfold wadd wmul; rw [Nat.one_mul]; omega)
          simp only [Nat.zero_add] at hr ⊢
          generalize takeRun (fun count m => m == wadd base (wmul count (n - base))) 1 (n :: ns) = r at hr h1 ⊢
          obtain ⟨r1, r2, r3, r4⟩ := hr
          have hb0 : wadd base (wmul 0 (n - base)) = base := by unfold wadd wmul; rw [Nat.zero_mul]; omega
          rw [hb0] at r1 r2
          obtain ⟨ds, e1, e2, e3⟩ := ih (wadd base (wmul (n - base) r.1)) r.2 (by omega) (by omega)
            (Nat.mod_lt _ (by decide)) (fun m hm => hn m (r4 m hm))
          refine ⟨.pos (n - base) r.1 :: ds, by simp only [e1, Option.map_some], ?_, ?_⟩
          · rw [expand, Delta.nums, Delta.after, r2, show wmul r.1 (n - base) = wmul (n - base) r.1 by unfold wmul; rw [Nat.mul_comm], e2, ← r1]
          · intro d hd'
            rcases List.mem_cons.mp hd' with rfl | hd'
            · exact ⟨hd, h1, by omega⟩
            · exact e3 d hd'

/-- the loop ends, and its result stands for the list -/
theorem toDelta_spec {L : Nat} (ns : List Nat) (hn : ∀ n ∈ ns, n < 2 ^ 64) (hl : ns.length ≤ L + 1) (b : Nat) :
    ∃ ds, toDelta ns = some ds ∧ expand b ds = ns ∧ ∀ d ∈ ds, d.Fits L := by
  cases ns with
  | nil => exact ⟨[], rfl, rfl, by simp⟩
  | cons n ns =>
    obtain ⟨ds, e1, e2, e3⟩ := toDeltaFrom_spec L ns.length n ns (Nat.le_refl _) (by simpa using hl) (hn n (by simp))
      (fun m hm => hn m (by simp [hm]))
    refine ⟨.base n :: ds, by simp only [toDelta, e1, Option.map_some], ?_, ?_⟩
    · rw [expand, Delta.nums, Delta.after, e2]; rfl
    · intro d hd
      rcases List.mem_cons.mp hd with rfl | hd
      · exact hn n (by simp)
      · exact e3 d hd

/-! ### Instructions -/

/-- the state after emitting `ns` and setting the base -/
def St.emitted (s : St) (b : Nat) (r : Bytes) (ns : List Nat) : St :=
  { base := b, written := s.written + 8 * ns.length, inp := r, out := s.out ++ ns.flatMap w64 }

theorem repeat_eq (f : Nat → Nat) (n : Nat) : ∀ s : St, St.repeat f n s = s.emitted (iter f n s.base) s.inp (runOf f n s.base) := by
  induction n with
  | zero => intro s; simp [St.repeat, St.emitted, iter, runOf]
  | succ n ih =>
    intro s
    simp only [St.repeat, ih, St.emit, St.emitted, iter, runOf, List.length_cons, List.flatMap_cons, List.append_assoc]
    congr 1
    omega

theorem tag_div {tag nib : Nat} (ht : tag < 16) (hn : nib < 16) : (UInt8.ofNat (tag * 16 + nib)).toNat / 16 = tag := by
  rw [UInt8.toNat_ofNat']; omega

theorem tag_mod {tag nib : Nat} (ht : tag < 16) (hn : nib < 16) : (UInt8.ofNat (tag * 16 + nib)).toNat % 16 = nib := by
  rw [UInt8.toNat_ofNat']; omega

theorem readW_ok {k n : Nat} (hk : k = 1 ∨ k = 2 ∨ k = 4 ∨ k = 8) (hn : n < 256 ^ k) (s : St) (r : Bytes) :
    readW k { s with inp := leBytes k n ++ r } = some (n, { s with inp := r }) := by
  unfold readW
  rw [if_pos hk]
  simp only
  rw [leU_leBytes k n hn r]

theorem packTag_eq {tag nib : Nat} (hn : nib < 16) : packTag tag nib = some [UInt8.ofNat (tag * 16 + nib)] := by
  unfold packTag; rw [if_pos hn]

/-- the operand with its width -/
theorem packW_spec (tag n : Nat) (hn : n < 2 ^ 64) : ∃ k, (k = 1 ∨ k = 2 ∨ k = 4 ∨ k = 8) ∧ n < 256 ^ k ∧
    packW tag n = some (UInt8.ofNat (tag * 16 + k) :: leBytes k n) := by
  unfold packW
  by_cases h1 : n ≤ 255
  · rw [if_pos h1, packTag_eq (by omega)]; exact ⟨1, by simp, by omega, rfl⟩
  · rw [if_neg h1]
    by_cases h2 : n ≤ 65535
    · rw [if_pos h2, packTag_eq (by omega)]; exact ⟨2, by simp, by omega, rfl⟩
    · rw [if_neg h2]
      by_cases h3 : n ≤ 4294967295
      · rw [if_pos h3, packTag_eq (by omega)]; exact ⟨4, by simp, by omega, rfl⟩
      · rw [if_neg h3, packTag_eq (by omega)]; exact ⟨8, by simp, by omega, rfl⟩

section
variable (s : St) (r : Bytes) (count : Nat)

theorem instr_set {k n : Nat} (hk : k = 1 ∨ k = 2 ∨ k = 4 ∨ k = 8) (hn : n < 256 ^ k) :
    instr { s with inp := UInt8.ofNat (0 * 16 + k) :: (leBytes k n ++ r) } count = some (St.repeat id count { s with base := n, inp := r }) := by
  rw [instr]
  simp only [tag_div (tag := 0) (nib := k) (by omega) (by omega), tag_mod (tag := 0) (nib := k) (by omega) (by omega)]
  rw [readW_ok hk hn s r]

theorem instr_pos {nib : Nat} (hn : nib < 16) :
    instr { s with inp := UInt8.ofNat (1 * 16 + nib) :: r } count = some (St.repeat (wadd · nib) count { s with inp := r }) := by
  rw [instr]
  simp only [tag_div (tag := 1) (nib := nib) (by omega) hn, tag_mod (tag := 1) (nib := nib) (by omega) hn]

theorem instr_posW {k n : Nat} (hk : k = 1 ∨ k = 2 ∨ k = 4 ∨ k = 8) (hn : n < 256 ^ k) :
    instr { s with inp := UInt8.ofNat (2 * 16 + k) :: (leBytes k n ++ r) } count = some (St.repeat (wadd · n) count { s with inp := r }) := by
  rw [instr]
  simp only [tag_div (tag := 2) (nib := k) (by omega) (by omega), tag_mod (tag := 2) (nib := k) (by omega) (by omega)]
  rw [readW_ok hk hn s r]

theorem instr_neg {nib : Nat} (hn : nib < 16) :
    instr { s with inp := UInt8.ofNat (3 * 16 + nib) :: r } count = some (St.repeat (wsub · nib) count { s with inp := r }) := by
  rw [instr]
  simp only [tag_div (tag := 3) (nib := nib) (by omega) hn, tag_mod (tag := 3) (nib := nib) (by omega) hn]

theorem instr_negW {k n : Nat} (hk : k = 1 ∨ k = 2 ∨ k = 4 ∨ k = 8) (hn : n < 256 ^ k) :
    instr { s with inp := UInt8.ofNat (4 * 16 + k) :: (leBytes k n ++ r) } count = some (St.repeat (wsub · n) count { s with inp := r }) := by
  rw [instr]
  simp only [tag_div (tag := 4) (nib := k) (by omega) (by omega), tag_mod (tag := 4) (nib := k) (by omega) (by omega)]
  rw [readW_ok hk hn s r]

theorem instr_const {nib : Nat} (hn : nib < 16) :
    instr { s with inp := UInt8.ofNat (5 * 16 + nib) :: r } 1 = some (St.repeat id nib { s with inp := r }) := by
  rw [instr]
  simp only [tag_div (tag := 5) (nib := nib) (by omega) hn, tag_mod (tag := 5) (nib := nib) (by omega) hn]
  rw [if_pos trivial]

theorem byte_leU {v : Nat} (hv : v < 256) : leU 1 (leBytes 1 v ++ r) = some (v, r) := leU_leBytes 1 v (by omega) r

theorem instr_const8 {nib v : Nat} (hn : nib < 16) (hv : v < 256) :
    instr { s with inp := UInt8.ofNat (6 * 16 + nib) :: (leBytes 1 v ++ r) } 1 = some (St.repeat id (nib * 256 + v) { s with inp := r }) := by
  rw [instr]
  simp only [tag_div (tag := 6) (nib := nib) (by omega) hn, tag_mod (tag := 6) (nib := nib) (by omega) hn]
  rw [if_pos trivial, byte_leU r hv]

theorem instr_count {nib : Nat} (hn : nib < 16) :
    instr { s with inp := UInt8.ofNat (7 * 16 + nib) :: r } count = instr { s with inp := r } nib := by
  rw [instr]
  simp only [tag_div (tag := 7) (nib := nib) (by omega) hn, tag_mod (tag := 7) (nib := nib) (by omega) hn]

theorem instr_count8 {nib v : Nat} (hn : nib < 16) (hv : v < 256) :
    instr { s with inp := UInt8.ofNat (8 * 16 + nib) :: (leBytes 1 v ++ r) } count = instr { s with inp := r } (nib * 256 + v) := by
  rw [instr]
  simp only [tag_div (tag := 8) (nib := nib) (by omega) hn, tag_mod (tag := 8) (nib := nib) (by omega) hn]
  rw [byte_leU r hv]

theorem lit_ok (bs : Bytes) : St.lit { s with inp := bs ++ r } bs.length =
    some { s with inp := r, written := s.written + bs.length, out := s.out ++ bs } := by
  unfold St.lit
  simp only [takeB_append]

theorem instr_lit (bs : Bytes) (hn : bs.length < 16) :
    instr { s with inp := UInt8.ofNat (9 * 16 + bs.length) :: (bs ++ r) } 1 =
      some { s with inp := r, written := s.written + bs.length, out := s.out ++ bs } := by
  rw [instr]
  simp only [tag_div (tag := 9) (nib := bs.length) (by omega) hn, tag_mod (tag := 9) (nib := bs.length) (by omega) hn]
  rw [if_pos trivial]
  exact lit_ok s r bs

theorem instr_litW (bs : Bytes) {k : Nat} (hk : k = 1 ∨ k = 2 ∨ k = 4 ∨ k = 8) (hn : bs.length < 256 ^ k) :
    instr { s with inp := UInt8.ofNat (10 * 16 + k) :: (leBytes k bs.length ++ (bs ++ r)) } 1 =
      some { s with inp := r, written := s.written + bs.length, out := s.out ++ bs } := by
  rw [instr]
  simp only [tag_div (tag := 10) (nib := k) (by omega) (by omega), tag_mod (tag := 10) (nib := k) (by omega) (by omega)]
  rw [if_pos trivial, readW_ok hk hn s (bs ++ r)]
  exact lit_ok s r bs

/-- a count in front of an instruction -/
theorem packCount_instr {cnt : Nat} {c : Bytes} (hc : packCount cnt = some c) :
    instr { s with inp := c ++ r } 1 = instr { s with inp := r } cnt := by
  unfold packCount packCnt at hc
  split at hc
  · next h => cases hc; rw [h]; rfl
  · split at hc
    · next h => rw [packTag_eq h] at hc; cases hc; exact instr_count s r 1 h
    · split at hc
      · next h1 h2 =>
        rw [packTag_eq (by omega)] at hc
        cases hc
        have := instr_count8 s r 1 (nib := cnt / 256) (v := cnt % 256) (by omega) (by omega)
        rw [show cnt / 256 * 256 + cnt % 256 = cnt by omega] at this
        exact this
      · cases hc

theorem packDelta_instr {L : Nat} {d : Delta} (hd : d.Fits L) {bs : Bytes} (h : packDelta d = some bs) :
    instr { s with inp := bs ++ r } 1 = some (s.emitted (d.after s.base) r (d.nums s.base)) := by
  cases d with
  | base n =>
    obtain ⟨k, h1, h2, h3⟩ := packW_spec 0 n hd
    simp only [packDelta] at h
    rw [h3] at h
    cases h
    rw [List.cons_append, instr_set s r 1 h1 h2, repeat_eq]
    rfl
  | const c =>
    simp only [packDelta] at h
    unfold packCnt at h
    split at h
    · next hc =>
      rw [packTag_eq hc] at h
      cases h
      rw [List.cons_append, List.nil_append, instr_const s r hc, repeat_eq]
      simp only [iter_id]
      rfl
    · split at h
      · next h1 h2 =>
        rw [packTag_eq (by omega)] at h
        cases h
        have := instr_const8 s r (nib := c / 256) (v := c % 256) (by omega) (by omega)
        rw [show c / 256 * 256 + c % 256 = c by omega, repeat_eq] at this
        simp only [iter_id] at this
        exact this
      · cases h
  | pos dl c =>
    simp only [packDelta, Option.bind_eq_bind, Option.bind_eq_some_iff] at h
    obtain ⟨cb, hc, db, hdb, h⟩ := h
    cases h
    rw [List.append_assoc, packCount_instr s (db ++ r) hc]
    split at hdb
    · next hlt =>
      rw [packTag_eq hlt] at hdb
      cases hdb
      rw [List.cons_append, List.nil_append, instr_pos s r c hlt, repeat_eq]
      rfl
    · obtain ⟨k, h1, h2, h3⟩ := packW_spec 2 dl hd.1
      rw [h3] at hdb
      cases hdb
      rw [List.cons_append, instr_posW s r c h1 h2, repeat_eq]
      rfl
  | neg dl c =>
    simp only [packDelta, Option.bind_eq_bind, Option.bind_eq_some_iff] at h
    obtain ⟨cb, hc, db, hdb, h⟩ := h
    cases h
    rw [List.append_assoc, packCount_instr s (db ++ r) hc]
    split at hdb
    · next hlt =>
      rw [packTag_eq hlt] at hdb
      cases hdb
      rw [List.cons_append, List.nil_append, instr_neg s r c hlt, repeat_eq]
      rfl
    · obtain ⟨k, h1, h2, h3⟩ := packW_spec 4 dl hd.1
      rw [h3] at hdb
      cases hdb
      rw [List.cons_append, instr_negW s r c h1 h2, repeat_eq]
      rfl

end

/-- deltas with counts below 4096 can be packed -/
theorem packDelta_ok {L : Nat} (hL : L < 4096) {d : Delta} (hd : d.Fits L) : ∃ bs, packDelta d = some bs := by
  have hcnt : ∀ t t8 c, c < 4096 → ∃ bs, packCnt t t8 c = some bs := by
    intro t t8 c hc
    unfold packCnt
    split
    · next h => exact ⟨_, packTag_eq h⟩
    · rw [packTag_eq (by omega)]; exact ⟨_, rfl⟩
  have hcount : ∀ c, c < 4096 → ∃ bs, packCount c = some bs := by
    intro c hc
    unfold packCount
    split
    · exact ⟨_, rfl⟩
    · exact hcnt 7 8 c hc
  have hop : ∀ t tw n, n < 2 ^ 64 → ∃ bs, (if n < 16 then packTag t n else packW tw n) = some bs := by
    intro t tw n hn
    split
    · next h => exact ⟨_, packTag_eq h⟩
    · obtain ⟨k, -, -, h⟩ := packW_spec tw n hn; exact ⟨_, h⟩
  cases d with
  | base n => obtain ⟨k, -, -, h⟩ := packW_spec 0 n hd; exact ⟨_, h⟩
  | const c => exact hcnt 5 6 c (by have := hd.2; omega)
  | pos d c =>
    obtain ⟨a, ha⟩ := hcount c (by have := hd.2.2; omega)
    obtain ⟨b, hb⟩ := hop 1 2 d hd.1
    exact ⟨a ++ b, by simp only [packDelta, ha, hb]; rfl⟩
  | neg d c =>
    obtain ⟨a, ha⟩ := hcount c (by have := hd.2.2; omega)
    obtain ⟨b, hb⟩ := hop 3 4 d hd.1
    exact ⟨a ++ b, by simp only [packDelta, ha, hb]; rfl⟩

theorem packDeltas_ok {L : Nat} (hL : L < 4096) (ds : List Delta) (hd : ∀ d ∈ ds, d.Fits L) : ∃ bs, packDeltas ds = some bs := by
  induction ds with
  | nil => exact ⟨[], rfl⟩
  | cons d ds ih =>
    obtain ⟨a, ha⟩ := packDelta_ok hL (hd d (by simp))
    obtain ⟨b, hb⟩ := ih (fun d h => hd d (by simp [h]))
    exact ⟨a ++ b, by simp only [packDeltas, ha, hb]; rfl⟩

/-! ### Running the machine -/

theorem exec_step {s s' : St} {beg target : Nat} (hlt : s.written - beg < target) (h : instr s 1 = some s') :
    exec s beg target = exec s' beg target := by
  rw [exec, if_pos hlt, h]; rfl

theorem exec_done {s : St} {beg target : Nat} (h : ¬ s.written - beg < target) : exec s beg target = some s := by
  rw [exec, if_neg h]

theorem packDeltas_exec {L beg target : Nat} (ds : List Delta) : ∀ (bs : Bytes) (s : St) (r : Bytes), (∀ d ∈ ds, d.Fits L) →
    packDeltas ds = some bs → beg ≤ s.written → s.written + 8 * (expand s.base ds).length ≤ beg + target →
    exec { s with inp := bs ++ r } beg target = exec (s.emitted (afterAll s.base ds) r (expand s.base ds)) beg target := by
  induction ds with
  | nil =>
    intro bs s r _ h _ _
    cases h
    simp [St.emitted, afterAll, expand]
  | cons d ds ih =>
    intro bs s r hf h hb ht
    simp only [packDeltas, Option.bind_eq_bind, Option.bind_eq_some_iff] at h
    obtain ⟨a, ha, b, hb', h⟩ := h
    cases h
    have hd := hf d (by simp)
    have hpos := nums_pos hd s.base
    rw [expand, List.length_append] at ht
    have hi := packDelta_instr s (b ++ r) hd ha
    rw [List.append_assoc, exec_step (by simp only; omega) hi]
    have := ih b (s.emitted (d.after s.base) (b ++ r) (d.nums s.base)) r (fun d h => hf d (by simp [h])) hb'
      (by simp only [St.emitted]; omega) (by simp only [St.emitted]; omega)
    rw [show ({ s.emitted (d.after s.base) (b ++ r) (d.nums s.base) with inp := b ++ r } : St) =
      s.emitted (d.after s.base) (b ++ r) (d.nums s.base) from rfl] at this
    rw [this]
    congr 1
    simp only [St.emitted, afterAll, expand, List.length_append, List.flatMap_append, List.append_assoc]
    congr 1
    omega

/-- packed numbers: at most 4096 of them can be packed, and the machine emits them -/
theorem packU64s_exec (ns : List Nat) (hn : ∀ n ∈ ns, n < 2 ^ 64) (hl : ns.length ≤ 4096) :
    ∃ bs, packU64s ns = some bs ∧ ∀ (s : St) (r : Bytes) (beg target : Nat), beg ≤ s.written →
      s.written + 8 * ns.length ≤ beg + target →
      ∃ b, exec { s with inp := bs ++ r } beg target = exec (s.emitted b r ns) beg target := by
  obtain ⟨ds, h1, -, h3⟩ := toDelta_spec (L := 4095) ns hn (by omega) 0
  obtain ⟨bs, h4⟩ := packDeltas_ok (by decide) ds h3
  refine ⟨bs, by unfold packU64s; rw [h1]; exact h4, fun s r beg target hb ht => ?_⟩
  obtain ⟨ds', h1', h2, -⟩ := toDelta_spec (L := 4095) ns hn (by omega) s.base
  rw [h1] at h1'
  cases h1'
  refine ⟨afterAll s.base ds, ?_⟩
  have := packDeltas_exec (beg := beg) (target := target) ds bs s r h3 h4 hb (by rw [h2]; exact ht)
  rw [h2] at this
  exact this

theorem countP_w64s (ns : List Nat) (hn : ∀ n ∈ ns, n < 2 ^ 64) (r : Bytes) : countP leU64 ns.length (ns.flatMap w64 ++ r) = some (ns, r) := by
  induction ns with
  | nil => rfl
  | cons n ns ih =>
    rw [List.flatMap_cons, List.append_assoc, List.length_cons]
    unfold countP
    rw [show leU64 = leU 8 from rfl, leU64_w64 n (hn n (by simp))]
    simp only
    rw [show leU 8 = leU64 from rfl, ih (fun m h => hn m (by simp [h]))]

theorem unshift (n : Nat) (hn : n < 2 ^ 64) :
    ((n >>> 24) <<< 24) % 2 ^ 64 ||| ((n &&& (2 ^ 24 - 1)) &&& (2 ^ 24 - 1)) = n := by
  apply Nat.eq_of_testBit_eq
  intro i
  rw [Nat.testBit_or, Nat.testBit_mod_two_pow, Nat.testBit_shiftLeft, Nat.testBit_shiftRight, Nat.testBit_and, Nat.testBit_and,
    Nat.testBit_two_pow_sub_one]
  by_cases h64 : i < 64
  · by_cases h24 : i < 24
    · have : ¬ 24 ≤ i := by omega
      simp [h24, this]
    · have h1 : 24 ≤ i := by omega
      rw [show 24 + (i - 24) = i by omega]
      simp [h24, h64, h1]
  · have hz : n.testBit i = false :=
      Nat.testBit_lt_two_pow (Nat.lt_of_lt_of_le hn (Nat.pow_le_pow_right (by omega) (by omega)))
    have : ¬ i < 24 := by omega
    simp [h64, this, hz]

theorem emitShifted_eq (ns : List Nat) : ∀ s : St, (∀ n ∈ ns, n < 2 ^ 64) →
    St.emitShifted (ns.map (· >>> 24)) (ns.map (· &&& (2 ^ 24 - 1))) s = s.emitted s.base s.inp ns := by
  induction ns with
  | nil => intro s _; simp [St.emitShifted, St.emitted]
  | cons n ns ih =>
    intro s hn
    simp only [List.map_cons, St.emitShifted]
    rw [unshift n (hn n (by simp)), ih _ (fun m h => hn m (by simp [h]))]
    simp only [St.emit, St.emitted, List.length_cons, List.flatMap_cons, List.append_assoc]
    congr 1
    omega

theorem packShifted_instr (ns : List Nat) (hn : ∀ n ∈ ns, n < 2 ^ 64) (hl : ns.length < 4096) :
    ∃ bs, packShifted ns = some bs ∧ ∀ (s : St) (r : Bytes),
      ∃ b, instr { s with inp := bs ++ r } 1 = some (s.emitted b r ns) := by
  have hh : ∀ n ∈ ns.map (· >>> 24), n < 2 ^ 64 := by
    intro n h
    obtain ⟨m, hm, rfl⟩ := List.mem_map.mp h
    have := hn m hm
    rw [Nat.shiftRight_eq_div_pow]
    omega
  have hlo : ∀ n ∈ ns.map (· &&& (2 ^ 24 - 1)), n < 2 ^ 64 := by
    intro n h
    obtain ⟨m, hm, rfl⟩ := List.mem_map.mp h
    rw [Nat.and_two_pow_sub_one_eq_mod]
    omega
  obtain ⟨hb, h1, h2⟩ := packU64s_exec _ hh (by rw [List.length_map]; omega)
  obtain ⟨lb, l1, l2⟩ := packU64s_exec _ hlo (by rw [List.length_map]; omega)
  refine ⟨_, by unfold packShifted; rw [packTag_eq (show ns.length / 256 < 16 by omega), h1, l1]; rfl, fun s r => ?_⟩
  have hinp : [UInt8.ofNat (11 * 16 + ns.length / 256)] ++ leBytes 1 (ns.length % 256) ++ hb ++ lb ++ r =
      UInt8.ofNat (11 * 16 + ns.length / 256) :: (leBytes 1 (ns.length % 256) ++ (hb ++ (lb ++ r))) := by
    simp only [List.append_assoc, List.cons_append, List.nil_append]
  rw [hinp]
  have hlen : ns.length / 256 * 256 + ns.length % 256 = ns.length := by omega
  have hx := h2 { s with out := [] } (lb ++ r) s.written (ns.length * 8) (Nat.le_refl _) (by
    rw [List.length_map]; simp only; omega)
  obtain ⟨b1, hx⟩ := hx
  replace hx := hx.trans (exec_done (by simp only [St.emitted, List.length_map]; omega))
  have hy := l2 { s with base := b1, out := [] } r s.written (ns.length * 8) (Nat.le_refl _) (by
    rw [List.length_map]; simp only; omega)
  obtain ⟨b2, hy⟩ := hy
  replace hy := hy.trans (exec_done (by simp only [St.emitted, List.length_map]; omega))
  refine ⟨b2, ?_⟩
  rw [instr]
  simp only [tag_div (tag := 11) (nib := ns.length / 256) (by omega) (by omega), tag_mod (tag := 11) (nib := ns.length / 256) (by omega) (by omega)]
  rw [byte_leU _ (Nat.mod_lt _ (by decide))]
  simp only [hlen]
  rw [hx]
  simp only [Option.bind_eq_bind, Option.bind_some, St.emitted, List.nil_append]
  have c1 := countP_w64s _ hh []
  rw [List.length_map, List.append_nil] at c1
  rw [c1]
  simp only
  rw [hy]
  simp only [Option.bind_some, St.emitted, List.nil_append]
  have c2 := countP_w64s _ hlo []
  rw [List.length_map, List.append_nil] at c2
  rw [c2]
  simp only
  rw [emitShifted_eq ns _ hn]
  simp only [St.emitted]

theorem packLiteral_instr (bs : Bytes) (hl : bs.length < 2 ^ 64) : ∃ ps, packLiteral bs = some ps ∧ ∀ (s : St) (r : Bytes),
    instr { s with inp := ps ++ r } 1 = some { s with inp := r, written := s.written + bs.length, out := s.out ++ bs } := by
  unfold packLiteral
  by_cases h : bs.length < 16
  · rw [if_pos h, packTag_eq h]
    refine ⟨_, rfl, fun s r => ?_⟩
    rw [List.append_assoc]
    exact instr_lit s r bs h
  · obtain ⟨k, h1, h2, h3⟩ := packW_spec 10 bs.length hl
    rw [if_neg h, h3]
    refine ⟨_, rfl, fun s r => ?_⟩
    rw [List.append_assoc, List.cons_append]
    exact instr_litW s r bs h1 h2

/-! ### C30 -/

theorem flatMap_w64_length (ns : List Nat) : (ns.flatMap w64).length = 8 * ns.length := by
  induction ns with
  | nil => rfl
  | cons n ns ih => rw [List.flatMap_cons, List.length_append, ih, leBytes_length, List.length_cons]; omega

theorem unpack_of_exec {inp out r : Bytes} {n b w : Nat} (h : exec ⟨0, 0, inp, []⟩ 0 n = some ⟨b, w, r, out⟩) (hw : w = n)
    (hl : out.length = n) : unpack inp n = some (out, r) := by
  unfold unpack
  rw [h]
  simp only
  rw [if_pos ⟨hl, hw⟩]

/-- C30, plain: any list of at most 4096 64-bit numbers is packed, and unpacking gives the numbers back and leaves what
follows in the stream untouched. -/
theorem packU64s_lossless (ns : List Nat) (hn : ∀ n ∈ ns, n < 2 ^ 64) (hl : ns.length ≤ 4096) :
    ∃ bs, packU64s ns = some bs ∧ ∀ rest, unpack (bs ++ rest) (8 * ns.length) = some (ns.flatMap w64, rest) := by
  obtain ⟨bs, h1, h2⟩ := packU64s_exec ns hn hl
  refine ⟨bs, h1, fun rest => ?_⟩
  obtain ⟨b, h⟩ := h2 ⟨0, 0, [], []⟩ rest 0 (8 * ns.length) (Nat.le_refl _) (by simp)
  replace h := h.trans (exec_done (by simp [St.emitted]))
  exact unpack_of_exec h (by simp) (flatMap_w64_length ns)

/-- C30, shifted: the same for the encoding of mapping values, below 4096 numbers and at least one (for an empty list
nothing is run). -/
theorem packShifted_lossless (ns : List Nat) (hn : ∀ n ∈ ns, n < 2 ^ 64) (hl : ns.length < 4096) (h0 : ns ≠ []) :
    ∃ bs, packShifted ns = some bs ∧ ∀ rest, unpack (bs ++ rest) (8 * ns.length) = some (ns.flatMap w64, rest) := by
  obtain ⟨bs, h1, h2⟩ := packShifted_instr ns hn hl
  refine ⟨bs, h1, fun rest => ?_⟩
  obtain ⟨b, h⟩ := h2 ⟨0, 0, [], []⟩ rest
  have hpos := List.length_pos_iff.mpr h0
  have he := exec_step (beg := 0) (target := 8 * ns.length) (by simp only; omega) h
  replace he := he.trans (exec_done (by simp [St.emitted]))
  exact unpack_of_exec he (by simp) (flatMap_w64_length ns)

/-- C30, literals -/
theorem packLiteral_lossless (bs : Bytes) (hl : bs.length < 2 ^ 64) (h0 : bs ≠ []) :
    ∃ ps, packLiteral bs = some ps ∧ ∀ rest, unpack (ps ++ rest) bs.length = some (bs, rest) := by
  obtain ⟨ps, h1, h2⟩ := packLiteral_instr bs hl
  refine ⟨ps, h1, fun rest => ?_⟩
  have hpos := List.length_pos_iff.mpr h0
  have he := exec_step (beg := 0) (target := bs.length) (by simp only; omega) (h2 ⟨0, 0, [], []⟩ rest)
  replace he := he.trans (exec_done (by simp))
  exact unpack_of_exec he (by simp) (by simp)

end Verif.Pack
