import Verif.Prop.Pack
import Verif.Model.PackTop
import Verif.Prop.Checksum

/-!
# C31: packing a metadata block is lossless
-/

namespace Verif.Pack

theorem countP_u64 (n : Nat) : ∀ (i r : Bytes) (ns : List Nat), countP leU64 n i = some (ns, r) →
    i = ns.flatMap w64 ++ r ∧ ns.length = n ∧ ∀ m ∈ ns, m < 2 ^ 64 := by
  induction n with
  | zero => intro i r ns h; simp only [countP, Option.some.injEq, Prod.mk.injEq] at h; obtain ⟨rfl, rfl⟩ := h; simp
  | succ n ih =>
    intro i r ns h
    simp only [countP] at h
    split at h
    · cases h
    · next a i' ha =>
      split at h
      · cases h
      · next as i'' has =>
        simp only [Option.some.injEq, Prod.mk.injEq] at h
        obtain ⟨rfl, rfl⟩ := h
        obtain ⟨h1, h2, h3⟩ := ih _ _ _ has
        have hb := leU_eq_some ha
        obtain ⟨b0, b1, b2, b3, b4⟩ := hb
        refine ⟨?_, by simp [h2], ?_⟩
        · rw [List.flatMap_cons, List.append_assoc, ← h1, b2, b3, show w64 (leVal b0) = leBytes b0.length (leVal b0) by rw [b1], leBytes_leVal]
        · intro m hm
          rcases List.mem_cons.mp hm with rfl | hm
          · exact b4
          · exact h3 m hm

/-- the machine at a point of its run: it has emitted `out`, and `inp` follows -/
def runs (inp : Bytes) (target : Nat) (out : Bytes) (rest : Bytes) : Prop :=
  ∃ b, exec ⟨0, 0, inp, []⟩ 0 target = exec ⟨b, out.length, rest, out⟩ 0 target

theorem runs_start (inp : Bytes) (target : Nat) : runs inp target [] inp := ⟨0, rfl⟩

theorem runs_literal {inp bs ps out rest : Bytes} {target : Nat} (hp : packLiteral bs = some ps) (hl : bs.length < 2 ^ 64)
    (h : runs inp target out (ps ++ rest)) (hlt : out.length < target) : runs inp target (out ++ bs) rest := by
  obtain ⟨b, h⟩ := h
  obtain ⟨ps', h1, h2⟩ := packLiteral_instr bs hl
  rw [hp] at h1
  cases h1
  refine ⟨b, h.trans ?_⟩
  rw [List.length_append]
  exact exec_step (by simpa using hlt) (h2 ⟨b, out.length, [], out⟩ rest)

theorem runs_u64s {inp ps out rest : Bytes} {ns : List Nat} {target : Nat} (hp : packU64s ns = some ps)
    (hn : ∀ n ∈ ns, n < 2 ^ 64) (hl : ns.length ≤ 4096) (h : runs inp target out (ps ++ rest))
    (hle : out.length + 8 * ns.length ≤ target) : runs inp target (out ++ ns.flatMap w64) rest := by
  obtain ⟨b, h⟩ := h
  obtain ⟨ps', h1, h2⟩ := packU64s_exec ns hn hl
  rw [hp] at h1
  cases h1
  obtain ⟨b', h3⟩ := h2 ⟨b, out.length, [], out⟩ rest 0 target (Nat.zero_le _) (by simpa using hle)
  refine ⟨b', h.trans (h3.trans ?_)⟩
  simp only [St.emitted, List.length_append, flatMap_w64_length]

theorem runs_shifted {inp ps out rest : Bytes} {ns : List Nat} {target : Nat} (hp : packShifted ns = some ps)
    (hn : ∀ n ∈ ns, n < 2 ^ 64) (hl : ns.length < 4096) (h : runs inp target out (ps ++ rest))
    (hlt : out.length < target) : runs inp target (out ++ ns.flatMap w64) rest := by
  obtain ⟨b, h⟩ := h
  obtain ⟨ps', h1, h2⟩ := packShifted_instr ns hn hl
  rw [hp] at h1
  cases h1
  obtain ⟨b', h3⟩ := h2 ⟨b, out.length, [], out⟩ rest
  refine ⟨b', h.trans ((exec_step (by simpa using hlt) h3).trans ?_)⟩
  simp only [St.emitted, List.length_append, flatMap_w64_length]

theorem runs_done {inp out rest : Bytes} (h : runs inp out.length out rest) : unpack inp out.length = some (out, rest) := by
  obtain ⟨b, h⟩ := h
  rw [exec_done (s := ⟨b, _, _, _⟩) (by simp)] at h
  exact unpack_of_exec h rfl rfl

/-- The exceptional headers: a leaf that claims 508 entries of a size other than 8, so that the keys fill the block. -/
def Exceptional (data : Bytes) : Prop := ∃ vs, summarise data = some (true, 508, vs) ∧ vs ≠ 8

theorem tail_pack {tail d : Bytes} (h : (if tail = [] then some [] else packLiteral tail) = some d) :
    (tail = [] ∧ d = []) ∨ (tail ≠ [] ∧ packLiteral tail = some d) := by
  by_cases ht : tail = []
  · rw [if_pos ht] at h; cases h; exact .inl ⟨ht, rfl⟩
  · rw [if_neg ht] at h; exact .inr ⟨ht, h⟩

theorem runs_tail {inp out tail d rest : Bytes} {target : Nat}
    (h : (if tail = [] then some [] else packLiteral tail) = some d)
    (hr : runs inp target out (d ++ rest)) (hlen : out.length + tail.length = target) (h64 : tail.length < 2 ^ 64) :
    runs inp target (out ++ tail) rest := by
  rcases tail_pack h with ⟨rfl, rfl⟩ | ⟨hne, hp⟩
  · rw [List.append_nil]; exact hr
  · have := List.length_pos_iff.mpr hne
    exact runs_literal hp h64 hr (by omega)

theorem packNode_runs (data bs : Bytes) (hlen : data.length = 4096) (h : packNode data = some bs) :
    ∀ rest, (¬ Exceptional data → runs (bs ++ rest) 4096 data rest) ∧
      (Exceptional data → runs (bs ++ rest) 4096 data (UInt8.ofNat 0x90 :: rest)) := by
  intro rest
  unfold packNode at h
  simp only [Option.bind_eq_bind, Option.bind_eq_some_iff] at h
  obtain ⟨⟨leaf, mx, vs⟩, hs, ⟨hdr, i0⟩, hh, ⟨keys, i⟩, hk, h⟩ := h
  obtain ⟨e0, e1⟩ := takeB_eq_some hh
  simp only at hk h
  obtain ⟨k1, k2, k3⟩ := countP_u64 _ _ _ _ hk
  have hl0 : 32 + (8 * mx + i.length) = 4096 := by
    rw [← hlen, e0, List.length_append, e1, k1, List.length_append, flatMap_w64_length, k2]
  have hdata : data = hdr ++ keys.flatMap w64 ++ i := by rw [e0, k1, List.append_assoc]
  by_cases hlf : leaf = true
  · rw [if_pos hlf] at h
    by_cases h8 : vs = 8
    · rw [if_pos h8] at h
      simp only [Option.bind_eq_bind, Option.bind_eq_some_iff] at h
      obtain ⟨⟨vals, tail⟩, hv, a, ha, b, hb, c, hc, d, hd, h⟩ := h
      cases h
      obtain ⟨v1, v2, v3⟩ := countP_u64 _ _ _ _ hv
      simp only at hc hd
      have hl1 : 8 * mx + tail.length = i.length := by rw [v1, List.length_append, flatMap_w64_length, v2]
      constructor
      · intro _
        have r0 := runs_start (a ++ b ++ c ++ d ++ rest) 4096
        simp only [List.append_assoc] at r0 ⊢
        have r1 := runs_literal ha (by omega) r0 (by simp)
        have r2 := runs_u64s hb k3 (by omega) r1 (by simp only [List.nil_append, e1, k2]; omega)
        have r3 := runs_shifted hc v3 (by omega) r2 (by
          simp only [List.nil_append, List.length_append, e1, flatMap_w64_length, k2]; omega)
        have r4 := runs_tail hd r3 (by
          simp only [List.nil_append, List.length_append, e1, flatMap_w64_length, k2, v2]; omega) (by omega)
        rw [hdata, v1, ← List.append_assoc]
        simpa using r4
      · rintro ⟨vs', h1, h2⟩
        rw [hs] at h1
        cases h1
        exact absurd h8 h2
    · rw [if_neg h8] at h
      simp only [Option.bind_eq_bind, Option.bind_eq_some_iff] at h
      obtain ⟨a, ha, b, hb, c, hc, h⟩ := h
      cases h
      have r0 := runs_start (a ++ b ++ c ++ rest) 4096
      simp only [List.append_assoc] at r0 ⊢
      have r1 := runs_literal ha (by omega) r0 (by simp)
      have r2 := runs_u64s hb k3 (by omega) r1 (by simp only [List.nil_append, e1, k2]; omega)
      constructor
      · intro hne
        have hmx : mx ≠ 508 := by
          rintro rfl
          exact hne ⟨vs, by rw [hs, hlf], h8⟩
        have r3 := runs_literal hc (by omega) r2 (by
          simp only [List.nil_append, List.length_append, e1, flatMap_w64_length, k2]; omega)
        rw [hdata]
        simpa using r3
      · rintro ⟨vs', h1, h2⟩
        rw [hs] at h1
        cases h1
        have hi : i = [] := List.length_eq_zero_iff.mp (by omega)
        subst hi
        have hcv : c = [UInt8.ofNat 0x90] := by
          have : packLiteral [] = some [UInt8.ofNat 0x90] := by decide
          rw [this] at hc
          cases hc
          rfl
        rw [hdata]
        rw [hcv] at r2 ⊢
        simpa using r2
  · rw [if_neg hlf] at h
    simp only [Option.bind_eq_bind, Option.bind_eq_some_iff] at h
    obtain ⟨⟨vals, tail⟩, hv, a, ha, b, hb, c, hc, d, hd, h⟩ := h
    cases h
    obtain ⟨v1, v2, v3⟩ := countP_u64 _ _ _ _ hv
    simp only at hc hd
    have hl1 : 8 * mx + tail.length = i.length := by rw [v1, List.length_append, flatMap_w64_length, v2]
    constructor
    · intro _
      have r0 := runs_start (a ++ b ++ c ++ d ++ rest) 4096
      simp only [List.append_assoc] at r0 ⊢
      have r1 := runs_literal ha (by omega) r0 (by simp)
      have r2 := runs_u64s hb k3 (by omega) r1 (by simp only [List.nil_append, e1, k2]; omega)
      have r3 := runs_u64s hc v3 (by omega) r2 (by
        simp only [List.nil_append, List.length_append, e1, flatMap_w64_length, k2, v2]; omega)
      have r4 := runs_tail hd r3 (by
        simp only [List.nil_append, List.length_append, e1, flatMap_w64_length, k2, v2]; omega) (by omega)
      rw [hdata, v1, ← List.append_assoc]
      simpa using r4
    · rintro ⟨vs', h1, h2⟩
      rw [hs] at h1
      cases h1
      exact absurd rfl hlf

/-- C31, nodes: if the encoder accepts a 4096-byte block, and the block is not a leaf that claims 508 entries of a size other
than 8, unpacking gives back the block, and nothing of what follows in the stream is consumed. -/
theorem packNode_lossless_partial (data bs : Bytes) (hlen : data.length = 4096) (h : packNode data = some bs) (hx : ¬ Exceptional data)
    (rest : Bytes) : unpack (bs ++ rest) 4096 = some (data, rest) := by
  have := (packNode_runs data bs hlen h rest).1 hx
  rw [← hlen] at this ⊢
  exact runs_done this

/-- which blocks the encoder accepts: those whose keys, and for 8-byte values also the values, fit -/
theorem packNode_accepts (data : Bytes) (hlen : data.length = 4096) (leaf : Bool) (mx vs : Nat) (hs : summarise data = some (leaf, mx, vs))
    (hfit : if leaf = true ∧ vs ≠ 8 then mx ≤ 508 else mx ≤ 254) : ∃ bs, packNode data = some bs := by
  obtain ⟨hdr, i0, hh⟩ : ∃ hdr i0, takeB 32 data = some (hdr, i0) := by
    unfold takeB; rw [if_pos (by omega)]; exact ⟨_, _, rfl⟩
  obtain ⟨e0, e1⟩ := takeB_eq_some hh
  have hi0 : i0.length = 4064 := by
    have : data.length = 32 + i0.length := by rw [e0, List.length_append, e1]
    omega
  have hmx : mx ≤ 508 := by split at hfit <;> omega
  obtain ⟨keys, hk⟩ := countP_some (exactP_leU 8) mx i0 (by omega)
  obtain ⟨k1, k2, k3⟩ := countP_u64 _ _ _ _ hk
  obtain ⟨a, ha, -⟩ := packLiteral_instr hdr (by omega)
  obtain ⟨b, hb, -⟩ := packU64s_exec keys k3 (by omega)
  unfold packNode
  rw [hs, hh]
  simp only [Option.bind_eq_bind, Option.bind_some]
  rw [show leU64 = leU 8 from rfl, hk]
  simp only [Option.bind_some, ha, hb]
  by_cases hlf : leaf = true
  · by_cases h8 : vs = 8
    · rw [if_pos hlf, if_pos h8]
      rw [if_neg (by simp [h8])] at hfit
      obtain ⟨vals, hv⟩ := countP_some (exactP_leU 8) mx (i0.drop (8 * mx)) (by rw [List.length_drop]; omega)
      obtain ⟨v1, v2, v3⟩ := countP_u64 _ _ _ _ hv
      obtain ⟨c, hc, -⟩ := packShifted_instr vals v3 (by omega)
      rw [hv]
      simp only [Option.bind_some, hc]
      split
      · exact ⟨_, rfl⟩
      · obtain ⟨d, hd, -⟩ := packLiteral_instr (List.drop (8 * mx) (List.drop (8 * mx) i0)) (by simp only [List.length_drop]; omega)
        rw [hd]; exact ⟨_, rfl⟩
    · rw [if_pos hlf, if_neg h8]
      obtain ⟨c, hc, -⟩ := packLiteral_instr (i0.drop (8 * mx)) (by rw [List.length_drop]; omega)
      rw [hc]
      exact ⟨_, rfl⟩
  · rw [if_neg hlf]
    rw [if_neg (by simp [hlf])] at hfit
    obtain ⟨vals, hv⟩ := countP_some (exactP_leU 8) mx (i0.drop (8 * mx)) (by rw [List.length_drop]; omega)
    obtain ⟨v1, v2, v3⟩ := countP_u64 _ _ _ _ hv
    obtain ⟨c, hc, -⟩ := packU64s_exec vals v3 (by omega)
    rw [hv]
    simp only [Option.bind_some, hc]
    split
    · exact ⟨_, rfl⟩
    · obtain ⟨d, hd, -⟩ := packLiteral_instr (List.drop (8 * mx) (List.drop (8 * mx) i0)) (by simp only [List.length_drop]; omega)
      rw [hd]; exact ⟨_, rfl⟩

/-- C31, all kinds: a block of the type for which it is packed is given back by unpacking. -/
theorem packBlock_lossless_partial (crc : Bytes → UInt32) (data bs : Bytes) (hlen : data.length = 4096)
    (h : packBlock (metadataBlockType crc data) data = some bs) (hx : ¬ Exceptional data) (rest : Bytes) :
    unpack (bs ++ rest) 4096 = some (data, rest) := by
  have hlit : packLiteral data = some bs → unpack (bs ++ rest) 4096 = some (data, rest) := by
    intro h
    obtain ⟨ps, h1, h2⟩ := packLiteral_lossless data (by omega) (by intro h; rw [h] at hlen; simp at hlen)
    rw [h] at h1
    cases h1
    rw [← hlen]
    exact h2 rest
  unfold packBlock at h
  split at h
  · exact packNode_lossless_partial data bs hlen h hx rest
  · cases h
  · exact hlit h

/-- the header of a leaf with the given number of entries, followed by zeroes -/
def exampleLeaf (mx vs : Nat) : Bytes :=
  w32 0 ++ (w32 2 ++ (w64 0 ++ (w32 0 ++ (w32 mx ++ (w32 vs ++ (w32 0 ++ List.replicate 4064 0))))))

theorem exampleLeaf_length (mx vs : Nat) : (exampleLeaf mx vs).length = 4096 := by
  simp only [exampleLeaf, List.length_append, leBytes_length, List.length_replicate]

theorem summarise_example (c mx vs : Nat) (hc : c < 2 ^ 32) (hm : mx < 2 ^ 32) (hv : vs < 2 ^ 32) :
    summarise (leBytes 4 c ++ (exampleLeaf mx vs).drop 4) = some (true, mx, vs) := by
  have : (exampleLeaf mx vs).drop 4 = w32 2 ++ (w64 0 ++ (w32 0 ++ (w32 mx ++ (w32 vs ++ (w32 0 ++ List.replicate 4064 0))))) := by
    unfold exampleLeaf
    rw [List.drop_append, leBytes_length]
    have : (w32 0).drop 4 = [] := by decide
    simp only [this, List.nil_append, Nat.sub_self, List.drop_zero]
  rw [this]
  unfold summarise
  generalize List.replicate 4064 (0 : UInt8) = z
  refine bind_step (leU32_w32 _ hc _) ?_
  refine bind_step (leU32_w32 2 (by decide) _) ?_
  refine bind_step (leU64_w64 0 (by decide) _) ?_
  refine bind_step (leU32_w32 0 (by decide) _) ?_
  refine bind_step (leU32_w32 mx hm _) ?_
  refine bind_step (leU32_w32 vs hv _) ?_
  exact bind_step (leU32_w32 0 (by decide) _) rfl

/-- C31 is false of the code for exceptional blocks: such blocks exist, with a correct checksum, whatever the checksum
function; the encoder accepts them; and unpacking leaves a stray byte in front of what follows, so the rest of the stream is
out of step. -/
theorem packBlock_lossless_refuted (crc : Bytes → UInt32) : ∃ data bs, data.length = 4096 ∧ metadataBlockType crc data = .node ∧
    packBlock .node data = some bs ∧ ∀ rest, unpack (bs ++ rest) 4096 = some (data, UInt8.ofNat 0x90 :: rest) := by
  have hw := (writeChecksum_isSome_iff crc (exampleLeaf 508 16) .node).mpr ⟨exampleLeaf_length _ _, by decide⟩
  obtain ⟨data, hd⟩ := Option.isSome_iff_exists.mp hw
  have hty := write_then_type crc _ _ _ hd
  have hd' := hd
  unfold writeChecksum at hd
  rw [if_neg (by rw [exampleLeaf_length]; decide)] at hd
  simp only [BT.salt, Option.some.injEq] at hd
  have hs : summarise data = some (true, 508, 16) := by
    rw [← hd]
    exact summarise_example _ 508 16 (UInt32.toNat_lt _) (by decide) (by decide)
  have hlen : data.length = 4096 := by
    rw [← hd, List.length_append, leBytes_length, List.length_drop, exampleLeaf_length]
  obtain ⟨bs, hbs⟩ := packNode_accepts data hlen true 508 16 hs (by decide)
  refine ⟨data, bs, hlen, ?_, hbs, fun rest => ?_⟩
  · exact hty.1
  · have := (packNode_runs data bs hlen hbs rest).2 ⟨16, hs, by decide⟩
    rw [← hlen] at this ⊢
    exact runs_done this

/-- a concrete block for which the theorem speaks: a leaf of 84 entries of 40 bytes -/
example : ∃ bs, packNode (leBytes 4 7 ++ (exampleLeaf 84 40).drop 4) = some bs ∧
    ¬ Exceptional (leBytes 4 7 ++ (exampleLeaf 84 40).drop 4) := by
  have hs := summarise_example 7 84 40 (by decide) (by decide) (by decide)
  obtain ⟨bs, hbs⟩ := packNode_accepts _ (by simp [exampleLeaf_length]) _ _ _ hs (by decide)
  refine ⟨bs, hbs, ?_⟩
  rintro ⟨vs, h, -⟩
  rw [hs] at h
  cases h

end Verif.Pack
