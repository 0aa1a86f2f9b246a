import Verif.Lemmas.Parse
import Verif.Prop.Superblock

/-!
# C04, C05: B-tree nodes on disk
-/

namespace Verif

/-! ## Specification: where everything lies in a node block -/

/-- little-endian 32-bit word at a byte offset -/
def u32At (data : Bytes) (off : Nat) : Nat := leVal ((data.drop off).take 4)
/-- little-endian 64-bit word at a byte offset -/
def u64At (data : Bytes) (off : Nat) : Nat := leVal ((data.drop off).take 8)

/-- Bytes per value: leaves hold values of the tree's type, internal nodes hold 64-bit block numbers. -/
def Node.stride {V : Type} (c : Codec V) : Node V → Nat
  | .internal .. => 8
  | .leaf .. => c.diskSize

/-- number of values -/
def Node.nrValues {V : Type} : Node V → Nat
  | .internal _ _ v => v.length
  | .leaf _ _ v => v.length

/-- `v` is the value stored at byte offset `off` -/
def ValueAt {V : Type} (c : Codec V) (data : Bytes) (off : Nat) (v : V) : Prop :=
  ∃ r, c.unpack (data.drop off) = some (v, r)

/-- The on-disk layout: header words, then `max_entries` keys, then the values. -/
structure NodeOnDisk {V : Type} (c : Codec V) (data : Bytes) (n : Node V) : Prop where
  leaf_flag : n.header.is_leaf = (u32At data 4 == 2)
  block : n.header.block = u64At data 8
  nr : n.header.nr_entries = u32At data 16
  max : n.header.max_entries = u32At data 20
  vsize : n.header.value_size = u32At data 24
  keys : n.keys = (List.range n.header.nr_entries).map fun i => u64At data (32 + 8 * i)
  values : match n with
    | .internal h _ vs => h.is_leaf = false ∧
        vs = (List.range h.nr_entries).map fun i => u64At data (32 + 8 * h.max_entries + 8 * i)
    | .leaf h _ vs => h.is_leaf = true ∧ h.value_size = c.diskSize ∧ vs.length = h.nr_entries ∧
        ∀ i v, vs[i]? = some v → ValueAt c data (32 + 8 * h.max_entries + c.diskSize * i) v

/-- What the reader accepts, in terms of the bytes. -/
structure Acceptable (crc : Bytes → UInt32) (diskSize : Nat) (loc : Nat) (data : Bytes)
    (ignoreNonFatal isRoot : Bool) : Prop where
  checksum : metadataBlockType crc data = .node
  block : u64At data 8 = loc
  vsize : u32At data 4 = 2 → u32At data 24 = diskSize
  cap : ((u32At data 24 + 8) % 2 ^ 32) * u32At data 20 + 32 ≤ BLOCK_SIZE
  nr : u32At data 16 ≤ u32At data 20
  third : ignoreNonFatal = false → u32At data 20 % 3 = 0
  notSmall : ignoreNonFatal = false → isRoot = false → u32At data 20 / 3 ≤ u32At data 16
  fits : 32 + 8 * u32At data 20 + (if u32At data 4 = 2 then diskSize else 8) * u32At data 16 ≤ BLOCK_SIZE
  sorted : ∀ i, i + 1 < u32At data 16 → u64At data (32 + 8 * i) < u64At data (32 + 8 * (i + 1))

/-! ## Proofs -/

theorem keysOrdered_iff (ks : List Nat) (l : Option Nat) :
    keysOrdered l ks = true ↔ (∀ x, l = some x → ∀ y ∈ ks, x < y) ∧ ks.Pairwise (· < ·) := by
  induction ks generalizing l with
  | nil => simp [keysOrdered]
  | cons k ks ih =>
    cases l with
    | none => simp [keysOrdered, ih]
    | some l =>
      simp only [keysOrdered]
      split
      · next h =>
        simp only [Bool.false_eq_true, false_iff]
        rintro ⟨h1, -⟩
        have := h1 l rfl k (by simp)
        omega
      · next h =>
        rw [ih]
        simp only [Option.some.injEq, List.mem_cons, List.pairwise_cons]
        constructor
        · rintro ⟨h1, h2⟩
          refine ⟨?_, h1 k rfl, h2⟩
          rintro x rfl y (rfl | hy)
          · omega
          · have := h1 _ rfl y hy; omega
        · rintro ⟨-, h1, h2⟩
          exact ⟨fun x hx => hx ▸ h1, h2⟩

theorem header_unpack (data : Bytes) :
    NodeHeader.unpack data = if 32 ≤ data.length then
      some ({ block := u64At data 8, is_leaf := u32At data 4 == 2, nr_entries := u32At data 16,
              max_entries := u32At data 20, value_size := u32At data 24 }, data.drop 32) else none := by
  by_cases h : 32 ≤ data.length
  · rw [if_pos h]
    unfold NodeHeader.unpack
    simp only [leU_eq]
    rw [if_pos (by omega)]
    simp only [Option.bind_eq_bind, Option.bind_some, List.length_drop]
    rw [if_pos (by omega)]
    simp only [Option.bind_some, List.length_drop]
    rw [if_pos (by omega)]
    simp only [Option.bind_some, List.length_drop]
    rw [if_pos (by omega)]
    simp only [Option.bind_some, List.length_drop]
    rw [if_pos (by omega)]
    simp only [Option.bind_some, List.length_drop]
    rw [if_pos (by omega)]
    simp only [Option.bind_some, List.length_drop]
    rw [if_pos (by omega)]
    simp only [Option.bind_some, List.drop_drop, u32At, u64At]
  · rw [if_neg h]
    rw [Option.eq_none_iff_forall_ne_some]
    intro a ha
    unfold NodeHeader.unpack at ha
    simp only [leU_eq, Option.bind_eq_bind, Option.bind_eq_some_iff, Option.ite_none_right_eq_some, Prod.exists,
         Option.some.injEq, Prod.mk.injEq] at ha
    grind

/-- keys or block numbers read by `count(le_u64, n)` -/
theorem count64 (n : Nat) (i : Bytes) :
    countP leU64 n i = if 8 * n ≤ i.length then
      some ((List.range n).map (fun j => u64At i (8 * j)), i.drop (8 * n)) else none := by
  split
  · next h =>
    obtain ⟨xs, hxs⟩ := countP_some (exactP_leU 8) n i h
    obtain ⟨-, -, h3, h4⟩ := countP_eq_some (exactP_leU 8) n i _ xs hxs
    rw [hxs]
    congr 2
    apply List.ext_getElem
    · simp [h3]
    · intro j hj1 hj2
      obtain ⟨r', hr'⟩ := h4 j xs[j] (by simp [hj1])
      rw [leU_eq] at hr'
      split at hr'
      · simp only [Option.some.injEq, Prod.mk.injEq] at hr'
        simp [u64At, hr'.1]
      · simp at hr'
  · next h =>
    rw [Option.eq_none_iff_forall_ne_some]
    rintro ⟨xs, r⟩ hxs
    exact h (countP_eq_some (exactP_leU 8) n i _ xs hxs).1

theorem u64At_drop (data : Bytes) (a b : Nat) : u64At (data.drop a) b = u64At data (a + b) := by
  simp [u64At]

theorem sorted_range (f : Nat → Nat) (n : Nat) :
    ((List.range n).map f).Pairwise (· < ·) ↔ ∀ i, i + 1 < n → f i < f (i + 1) := by
  constructor
  · intro h i hi
    have := List.pairwise_iff_getElem.1 h i (i + 1) (by simp; omega) (by simp; omega) (by omega)
    simpa using this
  · intro h
    rw [List.pairwise_iff_getElem]
    intro i j hi hj hij
    simp only [List.getElem_map, List.getElem_range]
    simp only [List.length_map, List.length_range] at hi hj
    have : ∀ d, i + d + 1 < n → f i < f (i + d + 1) := by
      intro d
      induction d with
      | zero => intro hd; exact h i hd
      | succ d ih => intro hd; exact Nat.lt_trans (ih (by omega)) (h (i + d + 1) hd)
    have hd := this (j - i - 1) (by omega)
    rwa [show i + (j - i - 1) + 1 = j by omega] at hd

theorem exact_of_codec {V : Type} {c : Codec V} (hc : c.ExactSize) : ExactP c.unpack c.diskSize := hc

/-- the keys as they lie on disk -/
def keysOn (data : Bytes) (nr : Nat) : List Nat := (List.range nr).map fun i => u64At data (32 + 8 * i)

theorem unpackNodeRaw_sound {V : Type} (c : Codec V) (hc : c.ExactSize) (data : Bytes) (ign root : Bool) (n : Node V)
    (h : unpackNodeRaw c data ign root = .ok n) :
    NodeOnDisk c data n ∧
    ((u32At data 24 + 8) % 2 ^ 32) * u32At data 20 + 32 ≤ BLOCK_SIZE ∧
    u32At data 16 ≤ u32At data 20 ∧
    (ign = false → u32At data 20 % 3 = 0) ∧
    (ign = false → root = false → u32At data 20 / 3 ≤ u32At data 16) ∧
    32 + 8 * u32At data 20 + (if u32At data 4 = 2 then c.diskSize else 8) * u32At data 16 ≤ data.length ∧
    (keysOn data (u32At data 16)).Pairwise (· < ·) := by
  unfold unpackNodeRaw at h
  rw [header_unpack] at h
  by_cases h32 : 32 ≤ data.length
  · rw [if_pos h32] at h
    simp only [NODE_HEADER_SIZE, count64, List.length_drop] at h
    split at h
    · simp at h
    next hvs =>
    split at h
    · simp at h
    next hcap =>
    split at h
    · simp at h
    next hnr =>
    split at h
    · simp at h
    next hthird =>
    split at h
    · simp at h
    next hsmall =>
    by_cases hk : 8 * u32At data 16 ≤ data.length - 32
    · rw [if_pos hk] at h
      simp only at h
      split at h
      · simp at h
      next hord =>
      by_cases hp : 8 * (u32At data 20 - u32At data 16) ≤ data.length - 32 - 8 * u32At data 16
      · rw [if_pos (by simp only [List.length_drop]; omega)] at h
        simp only [List.drop_drop] at h
        have hkeys : (List.range (u32At data 16)).map (fun j => u64At (data.drop 32) (8 * j)) =
            keysOn data (u32At data 16) := by simp [keysOn, u64At_drop]
        rw [hkeys] at h hord
        have hsorted := ((keysOrdered_iff _ _).1 (by simpa using hord)).2
        have hoff : 32 + 8 * u32At data 16 + 8 * (u32At data 20 - u32At data 16) = 32 + 8 * u32At data 20 := by omega
        rw [hoff] at h
        have common : ∀ X, X ≤ data.length →
            ((u32At data 24 + 8) % 2 ^ 32) * u32At data 20 + 32 ≤ BLOCK_SIZE ∧
            u32At data 16 ≤ u32At data 20 ∧
            (ign = false → u32At data 20 % 3 = 0) ∧
            (ign = false → root = false → u32At data 20 / 3 ≤ u32At data 16) ∧
            X ≤ data.length ∧ (keysOn data (u32At data 16)).Pairwise (· < ·) := by
          intro X hX
          refine ⟨by omega, by omega, ?_, ?_, hX, hsorted⟩
          · rintro rfl; simpa using hthird
          · rintro rfl rfl
            simp only [Bool.not_false, Bool.and_self, Bool.true_and, decide_eq_true_eq] at hsmall
            omega
        by_cases hl : u32At data 4 = 2
        · simp only [hl, beq_self_eq_true, if_true] at h hvs ⊢
          split at h
          · simp at h
          · next vals r hv =>
            simp only [Except.ok.injEq] at h
            subst h
            obtain ⟨a1, -, a3, a4⟩ := countP_eq_some (exact_of_codec hc) _ _ _ _ hv
            simp only [List.length_drop] at a1
            have hvs' : u32At data 24 = c.diskSize := by simpa using hvs
            refine ⟨⟨by simp [Node.header, hl], rfl, rfl, rfl, rfl, rfl, ?_⟩, ?_⟩
            · refine ⟨rfl, hvs', a3, ?_⟩
              intro i v hi
              obtain ⟨r', hr'⟩ := a4 i v hi
              exact ⟨r', by rwa [List.drop_drop] at hr'⟩
            · exact common _ (by omega)
        · simp only [hl, beq_iff_eq, if_false] at h ⊢
          by_cases hv8 : 8 * u32At data 16 ≤ data.length - (32 + 8 * u32At data 20)
          · rw [if_pos (by simpa using hv8)] at h
            simp only [Except.ok.injEq] at h
            subst h
            refine ⟨⟨rfl, rfl, rfl, rfl, rfl, rfl, ?_⟩, common _ (by omega)⟩
            refine ⟨by simp [hl], by simp [u64At_drop]⟩
          · rw [if_neg (by simpa using hv8)] at h
            simp at h
      · rw [if_neg (by simp only [List.length_drop]; omega)] at h
        simp at h
    · rw [if_neg hk] at h
      simp at h
  · rw [if_neg h32] at h
    simp at h

theorem unpackNodeRaw_complete {V : Type} (c : Codec V) (hc : c.ExactSize) (data : Bytes) (ign root : Bool)
    (h32 : 32 ≤ data.length)
    (hvs : u32At data 4 = 2 → u32At data 24 = c.diskSize)
    (hcap : ((u32At data 24 + 8) % 2 ^ 32) * u32At data 20 + 32 ≤ BLOCK_SIZE)
    (hnr : u32At data 16 ≤ u32At data 20)
    (hthird : ign = false → u32At data 20 % 3 = 0)
    (hsmall : ign = false → root = false → u32At data 20 / 3 ≤ u32At data 16)
    (hfit : 32 + 8 * u32At data 20 + (if u32At data 4 = 2 then c.diskSize else 8) * u32At data 16 ≤ data.length)
    (hsorted : (keysOn data (u32At data 16)).Pairwise (· < ·)) :
    ∃ n, unpackNodeRaw c data ign root = .ok n := by
  unfold unpackNodeRaw
  rw [header_unpack, if_pos h32]
  simp only [NODE_HEADER_SIZE, count64, List.length_drop]
  rw [if_neg (by simpa using hvs), if_neg (by omega), if_neg (by omega),
    if_neg (by cases ign <;> simp_all), if_neg (by
      cases ign <;> cases root <;> simp_all), if_pos (by omega)]
  simp only
  have hkeys : (List.range (u32At data 16)).map (fun j => u64At (data.drop 32) (8 * j)) =
            keysOn data (u32At data 16) := by simp [keysOn, u64At_drop]
  rw [hkeys, if_neg (by simp [(keysOrdered_iff (keysOn data (u32At data 16)) none).2 ⟨by simp, hsorted⟩]),
    if_pos (by simp only [List.length_drop]; omega)]
  simp only [List.drop_drop]
  have hoff : 32 + 8 * u32At data 16 + 8 * (u32At data 20 - u32At data 16) = 32 + 8 * u32At data 20 := by omega
  rw [hoff]
  by_cases hl : u32At data 4 = 2
  · simp only [hl, if_true, beq_self_eq_true] at hfit ⊢
    obtain ⟨xs, hxs⟩ := countP_some (exact_of_codec hc) (u32At data 16) (data.drop (32 + 8 * u32At data 20))
      (by simp only [List.length_drop]; omega)
    rw [hxs]
    exact ⟨_, rfl⟩
  · simp only [hl, if_false, beq_iff_eq] at hfit ⊢
    rw [if_pos (by simp only [List.length_drop]; omega)]
    exact ⟨_, rfl⟩

/-- C04 (both directions of acceptance): a block is accepted exactly when it is `Acceptable`, a condition on
its bytes alone. -/
theorem node_accept_iff {V : Type} (crc : Bytes → UInt32) (c : Codec V) (hc : c.ExactSize) (loc : Nat)
    (data : Bytes) (ign root : Bool) :
    (∃ n, checkAndUnpackNode crc c loc data ign root = .ok n) ↔
      Acceptable crc c.diskSize loc data ign root := by
  constructor
  · rintro ⟨n, h⟩
    unfold checkAndUnpackNode at h
    simp only [Bind.bind, Except.bind] at h
    split at h
    · simp at h
    · next hck =>
      split at h
      · simp at h
      · next node hn =>
        split at h
        · simp at h
        · next hb =>
          obtain ⟨hd, h1, h2, h3, h4, h5, h6⟩ := unpackNodeRaw_sound c hc data ign root node hn
          have hty : metadataBlockType crc data = .node := by
            unfold verifyChecksum at hck
            split at hck <;> simp_all
          have hlen := (type_sound crc data .node (by decide) hty).1
          refine ⟨hty, by rw [← hd.block]; simpa using hb, ?_, h1, h2, h3, h4, by omega,
            (sorted_range _ _).1 h6⟩
          intro hl
          have hv := hd.values
          have hvsz := hd.vsize
          have hlf := hd.leaf_flag
          cases node with
          | internal hh _ _ =>
            simp only [Node.header] at hlf hv
            rw [hv.1, hl] at hlf; simp at hlf
          | leaf hh _ _ => rw [← hvsz]; exact hv.2.1
  · rintro ⟨hty, hb, hvs, hcap, hnr, hth, hsm, hfit, hsrt⟩
    have hlen := (type_sound crc data .node (by decide) hty).1
    obtain ⟨n, hn⟩ := unpackNodeRaw_complete c hc data ign root (by rw [hlen]; decide) hvs hcap hnr hth hsm
      (by omega) ((sorted_range _ _).2 hsrt)
    have hd := (unpackNodeRaw_sound c hc data ign root n hn).1
    refine ⟨n, ?_⟩
    unfold checkAndUnpackNode verifyChecksum
    rw [hty]
    simp only [Bind.bind, Except.bind, hn]
    rw [if_neg (by simp [hd.block, hb])]

/-- C04: what a successful read guarantees. -/
theorem node_accept_sound {V : Type} (crc : Bytes → UInt32) (c : Codec V) (hc : c.ExactSize) (loc : Nat)
    (data : Bytes) (ign root : Bool) (n : Node V)
    (h : checkAndUnpackNode crc c loc data ign root = .ok n) :
    data.length = BLOCK_SIZE ∧ metadataBlockType crc data = .node ∧ NodeOnDisk c data n ∧
    n.header.block = loc ∧
    n.header.nr_entries ≤ n.header.max_entries ∧
    n.keys.length = n.header.nr_entries ∧ n.nrValues = n.header.nr_entries ∧
    n.keys.Pairwise (· < ·) ∧
    32 + 8 * n.header.max_entries + n.stride c * n.header.nr_entries ≤ BLOCK_SIZE ∧
    (ign = false → n.header.max_entries % 3 = 0) ∧
    (ign = false → root = false → n.header.max_entries / 3 ≤ n.header.nr_entries) := by
  have hacc := (node_accept_iff crc c hc loc data ign root).1 ⟨n, h⟩
  have hlen := (type_sound crc data .node (by decide) hacc.checksum).1
  unfold checkAndUnpackNode at h
  simp only [Bind.bind, Except.bind] at h
  split at h
  · simp at h
  split at h
  · simp at h
  next node hn =>
  split at h
  · simp at h
  simp only [Except.ok.injEq] at h
  subst h
  obtain ⟨hd, h1, h2, h3, h4, h5, h6⟩ := unpackNodeRaw_sound c hc data ign root node hn
  have hv := hd.values
  have e1 := hd.nr
  have e2 := hd.max
  have e3 := hd.leaf_flag
  refine ⟨hlen, hacc.checksum, hd, by rw [hd.block, hacc.block], by rw [e1, e2]; exact h2, by rw [hd.keys]; simp, ?_,
    by rw [hd.keys, e1]; exact h6, ?_, by rw [e2]; exact h3, by rw [e1, e2]; exact h4⟩
  · cases node with
    | internal hh ks vs => simp only [Node.nrValues, Node.header] at hv ⊢; rw [hv.2]; simp
    | leaf hh ks vs => exact hv.2.2.1
  · rw [e1, e2, ← hlen]
    cases node with
    | internal hh ks vs =>
      simp only [Node.header, hv.1] at e3
      have : u32At data 4 ≠ 2 := by intro hh; rw [hh] at e3; simp at e3
      rw [if_neg this] at h5
      exact h5
    | leaf hh ks vs =>
      simp only [Node.header, hv.1] at e3
      have : u32At data 4 = 2 := by simpa using e3.symm
      rw [if_pos this] at h5
      exact h5

/-! ## C05: round trip -/

/-- A node the writers can produce: consistent header, sorted 64-bit keys, values that fit, room in the block. -/
structure Node.WF {V : Type} (c : Codec V) (D : V → Prop) (n : Node V) : Prop where
  blk : n.header.block < 2 ^ 64
  nr : n.keys.length = n.header.nr_entries
  cap : n.header.nr_entries ≤ n.header.max_entries
  room : (n.header.value_size + 8) * n.header.max_entries + 32 ≤ BLOCK_SIZE
  vs32 : n.header.value_size + 8 < 2 ^ 32
  max32 : n.header.max_entries < 2 ^ 32
  keys64 : ∀ k ∈ n.keys, k < 2 ^ 64
  sorted : n.keys.Pairwise (· < ·)
  vals : match n with
    | .internal h _ vs => h.is_leaf = false ∧ h.value_size = 8 ∧ vs.length = h.nr_entries ∧ ∀ v ∈ vs, v < 2 ^ 64
    | .leaf h _ vs => h.is_leaf = true ∧ h.value_size = c.diskSize ∧ vs.length = h.nr_entries ∧ ∀ v ∈ vs, D v

/-- The strict reader additionally wants a capacity divisible by three and, except for the root, one third full. -/
def Node.Strict {V : Type} (n : Node V) (root : Bool) : Prop :=
  n.header.max_entries % 3 = 0 ∧ (root = false → n.header.max_entries / 3 ≤ n.header.nr_entries)

theorem countP_roundtrip {α : Type} (p : Parser α) (pk : α → Bytes) (xs : List α)
    (h : ∀ x ∈ xs, ∀ r, p (pk x ++ r) = some (x, r)) (r : Bytes) :
    countP p xs.length ((xs.map pk).flatten ++ r) = some (xs, r) := by
  induction xs with
  | nil => simp [countP]
  | cons x xs ih =>
    simp only [List.length_cons, List.map_cons, List.flatten_cons, List.append_assoc, countP]
    rw [h x (by simp)]
    simp only
    rw [ih (fun y hy => h y (by simp [hy]))]

theorem count_zeros (k : Nat) (r : Bytes) :
    ∃ xs, countP leU64 k ((List.replicate k (w64 0)).flatten ++ r) = some (xs, r) := by
  have := countP_roundtrip leU64 w64 (List.replicate k 0)
    (fun x hx r => by rw [List.eq_of_mem_replicate hx]; exact leU64_w64 0 (by decide) r) r
  rw [List.length_replicate, List.map_replicate] at this
  exact ⟨_, this⟩

/-- header bytes after the checksum word -/
theorem header_roundtrip (h : NodeHeader) (hb : h.block < 2 ^ 64) (hn : h.nr_entries < 2 ^ 32)
    (hm : h.max_entries < 2 ^ 32) (hv : h.value_size < 2 ^ 32) (w : Nat) (hw : w < 2 ^ 32) (r : Bytes) :
    NodeHeader.unpack (w32 w ++ (h.pack.drop 4 ++ r)) = some (h, r) := by
  have hf : (if h.is_leaf then 2 else 1) < 2 ^ 32 := by split <;> decide
  have hp : h.pack.drop 4 = w32 (if h.is_leaf then 2 else 1) ++ (w64 h.block ++ (w32 h.nr_entries ++
      (w32 h.max_entries ++ (w32 h.value_size ++ w32 0)))) := by
    unfold NodeHeader.pack
    rw [List.drop_append_of_le_length (by simp), List.drop_of_length_le (by simp), List.nil_append]
  rw [hp]
  simp only [List.append_assoc]
  unfold NodeHeader.unpack
  refine bind_step (leU32_w32 _ hw _) ?_
  refine bind_step (leU32_w32 _ hf _) ?_
  refine bind_step (leU64_w64 _ hb _) ?_
  refine bind_step (leU32_w32 _ hn _) ?_
  refine bind_step (leU32_w32 _ hm _) ?_
  refine bind_step (leU32_w32 _ hv _) ?_
  refine bind_step (leU32_w32 0 (by decide) _) ?_
  cases h with | mk a b c d e => cases b <;> rfl

/-- the packed value area -/
def Node.valueBytes {V : Type} (c : Codec V) : Node V → Bytes
  | .internal _ _ vs => (vs.map w64).flatten
  | .leaf _ _ vs => (vs.map c.pack).flatten

theorem pack_split {V : Type} (c : Codec V) (n : Node V) :
    ∃ body, packNode c n = w32 0 ++ (n.header.pack.drop 4 ++ body) ∧
      body = (n.keys.map w64).flatten ++ ((List.replicate (n.header.max_entries - n.keys.length) (w64 0)).flatten ++
        n.valueBytes c) := by
  have hp : ∀ h : NodeHeader, h.pack = w32 0 ++ h.pack.drop 4 := fun h => by
    conv => lhs; rw [← List.take_append_drop 4 h.pack]
    congr 1
  cases n with
  | internal h ks vs =>
    refine ⟨_, ?_, rfl⟩
    show h.pack ++ _ = _
    conv => lhs; rw [hp h, List.append_assoc]
    rfl
  | leaf h ks vs =>
    refine ⟨_, ?_, rfl⟩
    show h.pack ++ _ = _
    conv => lhs; rw [hp h, List.append_assoc]
    rfl

/-- Decoding `w32 w` (any checksum word) followed by the packed node, followed by anything. -/
theorem unpack_packed {V : Type} (c : Codec V) (D : V → Prop) (hrt : c.RoundTripsOn D) (n : Node V)
    (hwf : n.WF c D) (ign root : Bool) (hs : ign = false → n.Strict root) (w : Nat) (hw : w < 2 ^ 32) (tail : Bytes) :
    unpackNodeRaw c (w32 w ++ ((packNode c n).drop 4 ++ tail)) ign root = .ok n := by
  obtain ⟨h1, h2, h3, h4, h5, h6, h7, h8, h9⟩ := hwf
  obtain ⟨body, hpk, hbody⟩ := pack_split c n
  rw [hpk, List.drop_append_of_le_length (by simp), List.drop_of_length_le (by simp), List.nil_append,
    List.append_assoc]
  unfold unpackNodeRaw
  rw [header_roundtrip _ h1 (by omega) h6 (by omega) w hw]
  simp only
  have hvs : (n.header.is_leaf && n.header.value_size != c.diskSize) = false := by
    cases n with
    | internal h _ _ => simp only [Node.header]; rw [h9.1]; rfl
    | leaf h _ _ => simp only [Node.header]; rw [h9.2.1]; simp
  rw [if_neg (by simp [hvs]), Nat.mod_eq_of_lt h5, if_neg (by rw [NODE_HEADER_SIZE]; omega), if_neg (by omega),
    if_neg (by
      cases ign
      · have := (hs rfl).1; simp [this]
      · simp),
    if_neg (by
      cases ign
      · cases root
        · have := (hs rfl).2 rfl; simp; omega
        · simp
      · simp)]
  rw [hbody]
  simp only [List.append_assoc]
  have hk := countP_roundtrip leU64 w64 n.keys (fun x hx r => leU64_w64 x (h7 x hx) r)
  rw [h2] at hk
  rw [hk]
  simp only
  rw [if_neg (by simp [(keysOrdered_iff n.keys none).2 ⟨by simp, h8⟩])]
  rw [h2]
  obtain ⟨z, hz⟩ := count_zeros (n.header.max_entries - n.header.nr_entries)
    (n.valueBytes c ++ tail)
  rw [hz]
  simp only
  cases n with
  | internal h ks vs =>
    rw [if_neg (by show ¬ h.is_leaf = true; rw [h9.1]; decide)]
    simp only [Node.header, Node.keys] at *
    rw [← h9.2.2.1, Node.valueBytes, countP_roundtrip leU64 w64 vs (fun x hx r => leU64_w64 x (h9.2.2.2 x hx) r)]
  | leaf h ks vs =>
    rw [if_pos (by exact h9.1)]
    simp only [Node.header, Node.keys] at *
    rw [← h9.2.2.1, Node.valueBytes, countP_roundtrip c.unpack c.pack vs (fun x hx r => (hrt x (h9.2.2.2 x hx)).2 r)]

theorem flatten_length_const {α : Type} (f : α → Bytes) (k : Nat) (xs : List α) (h : ∀ x ∈ xs, (f x).length = k) :
    (xs.map f).flatten.length = k * xs.length := by
  induction xs with
  | nil => simp
  | cons x xs ih =>
    simp only [List.map_cons, List.flatten_cons, List.length_append, List.length_cons]
    rw [h x (by simp), ih (fun y hy => h y (by simp [hy])), Nat.mul_succ, Nat.add_comm]

theorem packNode_length {V : Type} (c : Codec V) (D : V → Prop) (hrt : c.RoundTripsOn D) (n : Node V)
    (hwf : n.WF c D) : (packNode c n).length ≤ BLOCK_SIZE ∧ 32 ≤ (packNode c n).length := by
  obtain ⟨h1, h2, h3, h4, h5, h6, h7, h8, h9⟩ := hwf
  obtain ⟨body, hpk, hbody⟩ := pack_split c n
  have hh : (n.header.pack.drop 4).length = 28 := by simp [NodeHeader.pack]
  have hkl : (n.keys.map w64).flatten.length = 8 * n.keys.length := flatten_length_const _ _ _ (by simp)
  have hz : (List.replicate (n.header.max_entries - n.keys.length) (w64 0)).flatten.length =
      8 * (n.header.max_entries - n.keys.length) := by
    have := flatten_length_const w64 8 (List.replicate (n.header.max_entries - n.keys.length) 0) (by simp)
    simpa using this
  have hvl : (n.valueBytes c).length =
      n.header.value_size * n.header.nr_entries := by
    cases n with
    | internal h ks vs =>
      simp only [Node.header] at *
      rw [Node.valueBytes, flatten_length_const _ 8 _ (by simp), h9.2.1, h9.2.2.1]
    | leaf h ks vs =>
      simp only [Node.header] at *
      rw [Node.valueBytes, flatten_length_const _ c.diskSize _ (fun v hv => (hrt v (h9.2.2.2 v hv)).1), h9.2.1, h9.2.2.1]
  have hmul : n.header.value_size * n.header.nr_entries ≤ n.header.value_size * n.header.max_entries :=
    Nat.mul_le_mul_left _ h3
  rw [hpk, List.length_append, List.length_append, hbody, List.length_append, List.length_append, hvl, hz, hkl, hh,
    leBytes_length]
  rw [Nat.add_mul] at h4
  generalize n.header.value_size * n.header.nr_entries = A at *
  generalize n.header.value_size * n.header.max_entries = B at *
  omega

/-- C05: for every value codec that round-trips, every well-formed node (leaf or internal) written to a block,
whatever the block's memory held before, is read back exactly, by the lenient reader and, when it is at least
one third full (or the root), by the strict one. -/
theorem node_roundtrip {V : Type} (crc : Bytes → UInt32) (c : Codec V) (D : V → Prop) (hrt : c.RoundTripsOn D)
    (n : Node V) (hwf : n.WF c D) (old : Bytes) (hold : old.length = BLOCK_SIZE) (ign root : Bool)
    (hs : ign = false → n.Strict root) :
    ∃ b, nodeBlock crc c old n = some b ∧ checkAndUnpackNode crc c n.header.block b ign root = .ok n := by
  obtain ⟨hlen, hlen4⟩ := packNode_length c D hrt n hwf
  have hfill : fillBlock old (packNode c n) = some (packNode c n ++ old.drop (packNode c n).length) := by
    rw [fillBlock, if_pos (by omega)]
  have hbl : (packNode c n ++ old.drop (packNode c n).length).length = BLOCK_SIZE := by
    simp only [List.length_append, List.length_drop]; omega
  obtain ⟨b, hb⟩ := Option.isSome_iff_exists.1
    ((writeChecksum_isSome_iff crc (packNode c n ++ old.drop (packNode c n).length) .node).2 ⟨hbl, by decide⟩)
  refine ⟨b, by simp [nodeBlock, hfill, hb], ?_⟩
  have hty := (write_then_type crc _ b .node hb).1
  unfold writeChecksum at hb
  rw [if_neg (by simp [hbl])] at hb
  simp only [BT.salt, Option.some.injEq] at hb
  rw [List.drop_append_of_le_length (by omega)] at hb
  generalize (_ ^^^ (121107 : UInt32)) = cw at hb
  have hu := unpack_packed c D hrt n hwf ign root hs cw.toNat (UInt32.toNat_lt _) (old.drop (packNode c n).length)
  rw [hb] at hu
  unfold checkAndUnpackNode verifyChecksum
  rw [hty]
  simp [Bind.bind, Except.bind, hu]

/-- `calc_max_entries` leaves room for the node header and is divisible by three: the capacity condition of
`Node.WF` and `Node.Strict` for every node built by the tools. -/
theorem calcMaxEntries_room (vs : Nat) : (vs + 8) * calcMaxEntries vs + 32 ≤ BLOCK_SIZE ∧ calcMaxEntries vs % 3 = 0 := by
  unfold calcMaxEntries
  rw [show BLOCK_SIZE = 4096 from rfl]
  generalize hq : (4096 - 32) / (8 + vs) = q
  have h1 : (8 + vs) * q ≤ 4064 := by rw [← hq]; exact Nat.mul_div_le _ _
  have h2 : (vs + 8) * (q / 3 * 3) ≤ (vs + 8) * q := Nat.mul_le_mul_left _ (Nat.div_mul_le_self q 3)
  rw [Nat.add_comm] at h1
  constructor
  · generalize (vs + 8) * q = A at *
    generalize (vs + 8) * (q / 3 * 3) = B at *
    omega
  · omega

/-- a concrete well-formed leaf -/
example : Node.WF blockTimeCodec BlockTime.Fits
    (.leaf ⟨7, true, 2, calcMaxEntries 8, 8⟩ [3, 5] [⟨10, 1⟩, ⟨2 ^ 40 - 1, 2⟩]) :=
  ⟨by decide, rfl, by decide, by decide, by decide, by decide, by decide, by decide, rfl, rfl, rfl, by
    intro v hv; simp at hv; rcases hv with rfl | rfl <;> exact ⟨by decide, by decide⟩⟩

end Verif
