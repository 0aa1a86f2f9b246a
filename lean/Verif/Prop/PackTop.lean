import Verif.Prop.PackNode

/-!
# C32: which blocks are packed, and what a whole pack and unpack does
-/

namespace Verif.Pack

/-! ### The chunks -/

theorem chunkSize_pos (n j : Nat) : 0 < chunkSize n j := by unfold chunkSize; omega

theorem flatMap_chunks (cs n : Nat) : ((List.range n).map (fun i => (i * cs, (i + 1) * cs))).flatMap chunkBlocks = List.range (n * cs) := by
  induction n with
  | zero => simp
  | succ n ih =>
    rw [List.range_succ, List.map_append, List.flatMap_append, ih]
    simp only [List.map_cons, List.map_nil, List.flatMap_cons, List.flatMap_nil, List.append_nil, chunkBlocks]
    rw [List.range_eq_range', List.range_eq_range', Nat.succ_mul, Nat.add_sub_cancel_left]
    have := List.range'_append (s := 0) (m := n * cs) (n := cs) (step := 1)
    rw [Nat.one_mul, Nat.zero_add] at this
    exact this

/-- the chunks cover the device -/
theorem chunks_cover (n j : Nat) : (chunks n j).flatMap chunkBlocks = List.range n := by
  unfold chunks
  simp only
  rw [List.flatMap_append, flatMap_chunks]
  have hle : nrChunks n j * chunkSize n j ≤ n := Nat.div_mul_le_self _ _
  split
  · simp only [List.flatMap_cons, List.flatMap_nil, List.append_nil, chunkBlocks]
    rw [List.range_eq_range', List.range_eq_range']
    have := List.range'_append (s := 0) (m := nrChunks n j * chunkSize n j) (n := n - nrChunks n j * chunkSize n j) (step := 1)
    rw [Nat.one_mul, Nat.zero_add] at this
    rw [this]
    congr 1
    omega
  · simp only [List.flatMap_nil, List.append_nil]
    congr 1
    omega

theorem modify_flatten (l : List (List (Nat × Nat))) (i : Nat) (x : List (Nat × Nat)) (h : i < l.length) :
    (l.modify i (· ++ x)).flatten.Perm (l.flatten ++ x) := by
  rw [List.modify_eq_take_cons_drop h]
  conv => rhs; rw [← List.take_append_drop i l, List.drop_eq_getElem_cons h]
  simp only [List.flatten_append, List.flatten_cons, List.append_assoc]
  refine List.Perm.append_left _ (List.Perm.append_left _ ?_)
  exact List.perm_append_comm

theorem deal_length (sh : List (Nat × Nat)) (j : Nat) : ∀ c, (deal sh j c).length = j := by
  intro c
  induction c with
  | zero => simp [deal]
  | succ c ih => simp [deal, ih]

theorem deal_flatten (sh : List (Nat × Nat)) (j : Nat) (hj : 0 < j) : ∀ c, (deal sh j c).flatten.Perm (sh.take c) := by
  intro c
  induction c with
  | zero => simp [deal]
  | succ c ih =>
    rw [deal, List.take_succ]
    exact (modify_flatten _ _ _ (by rw [deal_length]; exact Nat.mod_lt _ hj)).trans (ih.append_right _)

theorem flatMap_perm {α β : Type} {f : α → List β} {l l' : List α} (h : l.Perm l') : (l.flatMap f).Perm (l'.flatMap f) := by
  rw [List.flatMap_def, List.flatMap_def]
  exact (h.map f).flatten

/-- the blocks a run examines, over all threads -/
def examined (n j : Nat) (sh : List (Nat × Nat)) : List Nat := (mkChunkVecs n j sh).flatten.flatMap chunkBlocks

theorem chunks_length (n j : Nat) : (chunks n j).length = nrChunks n j + (if nrChunks n j * chunkSize n j < n then 1 else 0) := by
  unfold chunks
  simp only [List.length_append, List.length_map, List.length_range]
  split <;> simp

/-- C32 holds if the chunk size divides the number of blocks: whatever the shuffle, the threads together examine every block
of the device exactly once. -/
theorem examined_partial (n j : Nat) (hj : 0 < j) (sh : List (Nat × Nat)) (hsh : sh.Perm (chunks n j)) (hd : chunkSize n j ∣ n) :
    (examined n j sh).Perm (List.range n) := by
  have hnot : ¬ nrChunks n j * chunkSize n j < n := by
    unfold nrChunks; rw [Nat.div_mul_cancel hd]; omega
  have hlen : sh.length = nrChunks n j := by rw [hsh.length_eq, chunks_length, if_neg hnot]; omega
  unfold examined mkChunkVecs
  have h1 := deal_flatten sh j hj (nrChunks n j)
  rw [List.take_of_length_le (by omega)] at h1
  have h2 := flatMap_perm (f := chunkBlocks) (h1.trans hsh)
  rwa [chunks_cover] at h2

/-- C32 is false of the code for every other size: whatever the shuffle, some block is examined by no thread. -/
theorem examined_refuted (n j : Nat) (hj : 0 < j) (sh : List (Nat × Nat)) (hsh : sh.Perm (chunks n j)) (hd : ¬ chunkSize n j ∣ n) :
    ∃ b, b < n ∧ b ∉ examined n j sh := by
  have hpos := chunkSize_pos n j
  have hlt : nrChunks n j * chunkSize n j < n := by
    have hle : nrChunks n j * chunkSize n j ≤ n := Nat.div_mul_le_self _ _
    rcases Nat.lt_or_ge (nrChunks n j * chunkSize n j) n with h | h
    · exact h
    · exact absurd ⟨nrChunks n j, by rw [Nat.mul_comm]; omega⟩ hd
  have hlen : sh.length = nrChunks n j + 1 := by rw [hsh.length_eq, chunks_length, if_pos hlt]
  have hall := flatMap_perm (f := chunkBlocks) hsh
  rw [chunks_cover] at hall
  -- the last chunk of the shuffled list is dropped
  have hsplit : sh = sh.take (nrChunks n j) ++ [sh[nrChunks n j]'(by omega)] := by
    conv => lhs; rw [← List.take_append_drop (nrChunks n j) sh, List.drop_eq_getElem_cons (by omega)]
    rw [List.drop_of_length_le (by omega)]
  have hin : sh[nrChunks n j]'(by omega) ∈ chunks n j := hsh.mem_iff.mp (List.getElem_mem _)
  -- a chunk is not empty
  have hne : ∀ c ∈ chunks n j, c.1 < c.2 ∧ c.1 < n := by
    intro c hc
    unfold chunks at hc
    simp only [List.mem_append, List.mem_map, List.mem_range] at hc
    rcases hc with ⟨i, hi, rfl⟩ | hc
    · have h1 : (i + 1) * chunkSize n j ≤ nrChunks n j * chunkSize n j := Nat.mul_le_mul_right _ hi
      simp only
      rw [Nat.succ_mul] at h1 ⊢
      omega
    · rw [if_pos hlt] at hc
      simp only [List.mem_singleton] at hc
      subst hc
      simp only
      omega
  obtain ⟨h1, h2⟩ := hne _ hin
  generalize hc : sh[nrChunks n j]'(by omega) = c at hsplit h1 h2
  refine ⟨c.1, h2, ?_⟩
  intro hb
  unfold examined mkChunkVecs at hb
  rw [(flatMap_perm (f := chunkBlocks) (deal_flatten sh j hj (nrChunks n j))).mem_iff] at hb
  have hnd := hall.nodup_iff.mpr List.nodup_range
  rw [hsplit, List.flatMap_append, List.nodup_append] at hnd
  refine hnd.2.2 c.1 hb c.1 ?_ rfl
  simp only [List.flatMap_cons, List.flatMap_nil, List.append_nil, chunkBlocks, List.mem_range'_1]
  omega

/-- in particular nothing at all is packed of a device below 128 blocks, such as any small metadata image -/
theorem examined_small (n j : Nat) (hj : 0 < j) (hn : n < 128) (sh : List (Nat × Nat)) : examined n j sh = [] := by
  have h : nrChunks n j = 0 := by
    unfold nrChunks
    exact Nat.div_eq_of_lt (by unfold chunkSize; omega)
  have h2 := flatMap_perm (f := chunkBlocks) (deal_flatten sh j hj 0)
  unfold examined mkChunkVecs
  rw [h]
  simpa using h2

example : chunkSize 1024 (nrJobs 4 1024) ∣ 1024 ∧ ¬ chunkSize 1000 (nrJobs 4 1000) ∣ 1000 := by decide

/-! ### The frames of a thread -/

/-- blocks that are packed -/
def known (crc : Bytes → UInt32) (img : Nat → Bytes) (b : Nat) : Bool := metadataBlockType crc (img b) != .unknown

def packedOf (crc : Bytes → UInt32) (img : Nat → Bytes) (b : Nat) : Bytes := (packBlock (metadataBlockType crc (img b)) (img b)).getD []

/-- a block in a frame -/
def item (crc : Bytes → UInt32) (img : Nat → Bytes) (b : Nat) : Bytes := w64 b ++ packedOf crc img b

section
variable (crc : Bytes → UInt32) (img : Nat → Bytes)

/-- frames and pending bytes are the packed blocks, in order -/
def CInv (s : Crunch) (groups : List (List Nat)) (cur : List Nat) : Prop :=
  s.frames = groups.map (fun g => g.flatMap (item crc img)) ∧ s.z = cur.flatMap (item crc img) ∧ s.written = cur.length ∧
    ∀ b ∈ groups.flatten ++ cur, ∃ p, packBlock (metadataBlockType crc (img b)) (img b) = some p

theorem crunchBlocks_inv (bs : List Nat) : ∀ (s s' : Crunch) (groups : List (List Nat)) (cur : List Nat), CInv crc img s groups cur →
    crunchBlocks crc img bs s = some s' →
    ∃ groups' cur', CInv crc img s' groups' cur' ∧ groups'.flatten ++ cur' = groups.flatten ++ cur ++ bs.filter (known crc img) := by
  induction bs with
  | nil => intro s s' g c hi h; cases h; exact ⟨g, c, hi, by simp⟩
  | cons b bs ih =>
    intro s s' g c hi h
    unfold crunchBlocks at h
    split at h
    · cases h
    · next s1 h1 =>
      unfold crunchBlock at h1
      by_cases hu : metadataBlockType crc (img b) = .unknown
      · rw [if_pos hu] at h1
        cases h1
        obtain ⟨g', c', hi', e⟩ := ih s s' g c hi h
        refine ⟨g', c', hi', ?_⟩
        rw [e, List.filter_cons_of_neg]
        simp [known, hu]
      · rw [if_neg hu] at h1
        have hkn : known crc img b = true := by simp [known, hu]
        split at h1
        · cases h1
        · next p hp =>
          have hitem : w64 b ++ p = item crc img b := by unfold item packedOf; rw [hp]; rfl
          obtain ⟨i1, i2, i3, i4⟩ := hi
          split at h1
          · cases h1
            obtain ⟨g', c', hi', e⟩ := ih _ s' (g ++ [c ++ [b]]) [] ⟨by simp [i1, i2, hitem], rfl, rfl, by
              intro x hx
              simp only [List.flatten_append, List.flatten_cons, List.flatten_nil, List.append_nil, List.mem_append, List.mem_singleton] at hx
              rcases hx with hx | hx | rfl
              · exact i4 x (by simp [hx])
              · exact i4 x (by simp [hx])
              · exact ⟨p, hp⟩⟩ h
            refine ⟨g', c', hi', ?_⟩
            rw [e, List.filter_cons_of_pos hkn]
            simp
          · cases h1
            obtain ⟨g', c', hi', e⟩ := ih ⟨s.written + 1, s.z ++ (w64 b ++ p), s.frames⟩ s' g (c ++ [b]) ⟨i1, by simp [i2, hitem], by simp [i3], by
              intro x hx
              simp only [List.mem_append, List.mem_singleton] at hx
              rcases hx with hx | hx | rfl
              · exact i4 x (by simp [hx])
              · exact i4 x (by simp [hx])
              · exact ⟨p, hp⟩⟩ h
            refine ⟨g', c', hi', ?_⟩
            rw [e, List.filter_cons_of_pos hkn]
            simp

theorem crunch_groups (ranges : List (Nat × Nat)) (frames : List Bytes) (h : crunch crc img ranges = some frames) :
    ∃ groups : List (List Nat), frames = groups.map (fun g => g.flatMap (item crc img)) ∧
      groups.flatten = (ranges.flatMap chunkBlocks).filter (known crc img) ∧
      ∀ b ∈ groups.flatten, ∃ p, packBlock (metadataBlockType crc (img b)) (img b) = some p := by
  unfold crunch at h
  split at h
  · cases h
  · next s hs =>
    obtain ⟨g, c, ⟨i1, i2, i3, i4⟩, e⟩ := crunchBlocks_inv crc img _ ⟨0, [], []⟩ s [] [] ⟨rfl, rfl, rfl, by simp⟩ hs
    simp only [List.flatten_nil, List.nil_append] at e
    simp only [Option.some.injEq] at h
    by_cases hw : s.written > 0
    · rw [if_pos hw] at h
      refine ⟨g ++ [c], ?_, by simpa using e, by simpa using i4⟩
      rw [← h, i1, i2, List.map_append]; rfl
    · rw [if_neg hw] at h
      have : c = [] := List.length_eq_zero_iff.mp (by omega)
      subst this
      exact ⟨g, by rw [← h, i1], by simpa using e, by simpa using i4⟩

/-! ### Decoding -/

theorem decodeFrame_group (hlen : ∀ b, (img b).length = 4096) (hx : ∀ b, ¬ Exceptional (img b)) (g : List Nat)
    (hg : ∀ b ∈ g, b < 2 ^ 64 ∧ known crc img b = true ∧ ∃ p, packBlock (metadataBlockType crc (img b)) (img b) = some p) :
    decodeFrame crc (g.flatMap (item crc img)) = some (g.map fun b => (b, img b)) := by
  induction g with
  | nil => rw [decodeFrame]; rfl
  | cons b g ih =>
    obtain ⟨h64, hk, p, hp⟩ := hg b (by simp)
    rw [List.flatMap_cons, decodeFrame]
    have e1 : item crc img b ++ g.flatMap (item crc img) = w64 b ++ (p ++ g.flatMap (item crc img)) := by
      unfold item packedOf; rw [hp, List.append_assoc]; rfl
    rw [e1, show leU64 = leU 8 from rfl, leU64_w64 b h64]
    simp only
    rw [packBlock_lossless_partial crc (img b) p (hlen b) hp (hx b)]
    simp only
    rw [if_neg (by simpa [known] using hk), ih (fun x hx => hg x (by simp [hx]))]
    rfl

theorem decodeAll_groups (z : Codec) (hz : ∀ x, z.decompress (z.compress x) = x) (hlen : ∀ b, (img b).length = 4096)
    (hx : ∀ b, ¬ Exceptional (img b)) (gs : List (List Nat))
    (hg : ∀ b ∈ gs.flatten, b < 2 ^ 64 ∧ known crc img b = true ∧ ∃ p, packBlock (metadataBlockType crc (img b)) (img b) = some p) :
    decodeAll crc z (gs.map fun g => z.compress (g.flatMap (item crc img))) = some (gs.flatten.map fun b => (b, img b)) := by
  induction gs with
  | nil => rfl
  | cons g gs ih =>
    rw [List.map_cons, decodeAll, hz, decodeFrame_group crc img hlen hx g (fun b hb => hg b (by simp [hb])),
      ih (fun b hb => hg b (by rw [List.flatten_cons, List.mem_append]; exact .inr hb))]
    simp

end

theorem readFrames_frames (z : Codec) (hzl : ∀ x, (z.compress x).length < 2 ^ 64) (fs : List Bytes) :
    readFrames (fs.flatMap (frame z)) = some (fs.map z.compress) := by
  induction fs with
  | nil => rw [readFrames]; rfl
  | cons f fs ih =>
    rw [List.flatMap_cons, readFrames]
    unfold frame at ih ⊢
    rw [List.append_assoc, show leU64 = leU 8 from rfl, leU64_w64 _ (hzl f)]
    simp only [takeB_append]
    rw [ih]
    rfl

theorem readHeader_header (n : Nat) (hn : n < 2 ^ 64) (r : Bytes) : readHeader (header n ++ r) = some (n, r) := by
  unfold readHeader header
  simp only [List.append_assoc]
  refine bind_step (leU64_w64 _ (by decide) _) ?_
  simp only
  rw [if_neg (by decide)]
  refine bind_step (leU64_w64 _ (by decide) _) ?_
  simp only
  rw [if_neg (by decide)]
  refine bind_step (leU64_w64 _ (by decide) _) ?_
  simp only
  rw [if_neg (by decide)]
  exact leU64_w64 _ hn _

/-! ### Writing -/

theorem writeAll_out {ws : List (Nat × Bytes)} {i : Nat} (h : ∀ w ∈ ws, w.1 ≠ i) : ∀ img, writeAll ws img i = img i := by
  induction ws with
  | nil => intro img; rfl
  | cons w ws ih =>
    intro img
    obtain ⟨b, block⟩ := w
    have hb := h (b, block) (by simp)
    rw [writeAll, ih (fun w hw => h w (by simp [hw])), if_neg (fun e => hb e.symm)]

theorem writeAll_in {ws : List (Nat × Bytes)} {i : Nat} {v : Bytes} (h : ∀ w ∈ ws, w.1 = i → w.2 = v) (hin : ∃ w ∈ ws, w.1 = i) :
    ∀ img, writeAll ws img i = v := by
  induction ws with
  | nil => obtain ⟨w, hw, -⟩ := hin; cases hw
  | cons w ws ih =>
    intro img
    obtain ⟨b, block⟩ := w
    rw [writeAll]
    by_cases hex : ∃ w ∈ ws, w.1 = i
    · exact ih (fun w hw => h w (by simp [hw])) hex _
    · rw [writeAll_out (fun w hw e => hex ⟨w, hw, e⟩)]
      obtain ⟨w, hw, hwi⟩ := hin
      rcases List.mem_cons.mp hw with rfl | hw
      · simp only at hwi
        rw [if_pos hwi.symm]
        exact h (b, block) (by simp) hwi
      · exact absurd ⟨w, hw, hwi⟩ hex

/-! ### The whole -/

/-- the outcome of the threads: some grouping of the examined blocks that are metadata -/
theorem outs_groups (crc : Bytes → UInt32) (img : Nat → Bytes) (vecs : List (List (Nat × Nat))) : ∀ (outs : List (List Bytes)),
    vecs.map (crunch crc img) = outs.map some → ∃ gs : List (List Nat), outs.flatten = gs.map (fun g => g.flatMap (item crc img)) ∧
      gs.flatten = (vecs.flatten.flatMap chunkBlocks).filter (known crc img) ∧
      ∀ b ∈ gs.flatten, ∃ p, packBlock (metadataBlockType crc (img b)) (img b) = some p := by
  induction vecs with
  | nil => intro outs h; cases outs with
    | nil => exact ⟨[], rfl, rfl, by simp⟩
    | cons o os => simp at h
  | cons v vecs ih =>
    intro outs h
    cases outs with
    | nil => simp at h
    | cons o os =>
      simp only [List.map_cons, List.cons.injEq] at h
      obtain ⟨g1, e1, e2, e3⟩ := crunch_groups crc img v o h.1
      obtain ⟨g2, f1, f2, f3⟩ := ih os h.2
      refine ⟨g1 ++ g2, by simp [e1, f1], by simp [e2, f2], ?_⟩
      intro b hb
      rw [List.flatten_append, List.mem_append] at hb
      rcases hb with hb | hb
      · exact e3 b hb
      · exact f3 b hb

theorem perm_map_exists {α β : Type} {f : α → β} {l : List α} {l' : List β} (h : l'.Perm (l.map f)) : ∃ l0 : List α, l0.Perm l ∧ l' = l0.map f := by
  generalize hm : l.map f = m at h
  induction h generalizing l with
  | nil => cases l with
    | nil => exact ⟨[], .refl _, rfl⟩
    | cons a l => simp at hm
  | cons x _ ih =>
    cases l with
    | nil => simp at hm
    | cons a l =>
      simp only [List.map_cons, List.cons.injEq] at hm
      obtain ⟨l0, h1, h2⟩ := ih hm.2
      exact ⟨a :: l0, h1.cons a, by simp [hm.1, h2]⟩
  | swap x y t =>
    cases l with
    | nil => simp at hm
    | cons a l =>
      cases l with
      | nil => simp at hm
      | cons b l =>
        simp only [List.map_cons, List.cons.injEq] at hm
        exact ⟨b :: a :: l, List.Perm.swap _ _ _, by simp [hm]⟩
  | trans _ _ ih1 ih2 =>
    obtain ⟨l0, h1, h2⟩ := ih2 hm
    obtain ⟨l1, h3, h4⟩ := ih1 h2.symm
    exact ⟨l1, h3.trans h1, h4⟩

/-- What any run of `pack` followed by any run of `unpack` gives, for every image whose size the chunk size divides: an image
of the same number of blocks, equal to the original in every block recognised as metadata, and zero in every other.  It holds
for every shuffle of the chunks, every order in which the threads append their frames, and every order in which the workers
write the blocks. -/
theorem pack_unpack_partial (crc : Bytes → UInt32) (z : Codec) (hz : ∀ x, z.decompress (z.compress x) = x)
    (hzl : ∀ x, (z.compress x).length < 2 ^ 64) (cpus n : Nat) (hn : 0 < n) (hn64 : n < 2 ^ 64) (img : Nat → Bytes)
    (hlen : ∀ b, (img b).length = 4096) (hx : ∀ b, ¬ Exceptional (img b)) (hd : chunkSize n (nrJobs cpus n) ∣ n)
    (file : Bytes) (hp : Packed crc z cpus n img file) :
    (∃ img', Unpacked crc z file n img') ∧
    ∀ n' img', Unpacked crc z file n' img' → n' = n ∧ ∀ b, b < n →
      img' b = if metadataBlockType crc (img b) = .unknown then List.replicate 4096 0 else img b := by
  obtain ⟨sh, hsh, outs, houts, order, hord, rfl⟩ := hp
  have hj : 0 < nrJobs cpus n := by unfold nrJobs; omega
  obtain ⟨gs, g1, g2, g3⟩ := outs_groups crc img _ outs houts
  rw [g1] at hord
  obtain ⟨gs', hgs, rfl⟩ := perm_map_exists hord
  have hex := examined_partial n (nrJobs cpus n) hj sh hsh hd
  have hmem : ∀ b, b ∈ gs'.flatten ↔ b < n ∧ known crc img b = true := by
    intro b
    rw [hgs.flatten.mem_iff, g2, List.mem_filter]
    have := hex.mem_iff (a := b)
    unfold examined at this
    rw [this, List.mem_range]
  have hhdr := readHeader_header n hn64 ((gs'.map fun g => g.flatMap (item crc img)).flatMap (frame z))
  have hfr := readFrames_frames z hzl (gs'.map fun g => g.flatMap (item crc img))
  rw [List.map_map] at hfr
  have hdec := decodeAll_groups crc img z hz hlen hx gs' (fun b hb =>
    ⟨by have := ((hmem b).mp hb).1; omega, ((hmem b).mp hb).2, g3 b (hgs.flatten.mem_iff.mp hb)⟩)
  refine ⟨⟨_, _, hhdr, by omega, _, hfr, _, hdec, _, .refl _, rfl⟩, ?_⟩
  rintro n' img' ⟨rest, h1, -, frames, h2, blocks, h3, ord, h4, rfl⟩
  rw [hhdr] at h1
  simp only [Option.some.injEq, Prod.mk.injEq] at h1
  obtain ⟨rfl, rfl⟩ := h1
  rw [hfr] at h2
  cases h2
  have hdec' : decodeAll crc z (List.map (z.compress ∘ fun g => List.flatMap (item crc img) g) gs') =
    some (gs'.flatten.map fun b => (b, img b)) := hdec
  rw [hdec'] at h3
  cases h3
  refine ⟨rfl, fun b hb => ?_⟩
  by_cases hk : metadataBlockType crc (img b) = .unknown
  · rw [if_pos hk, writeAll_out]
    intro w hw e
    obtain ⟨b', hb', rfl⟩ := List.mem_map.mp (h4.mem_iff.mp hw)
    simp only at e
    subst e
    have := ((hmem b').mp hb').2
    simp [known, hk] at this
  · rw [if_neg hk]
    refine writeAll_in ?_ ⟨(b, img b), h4.mem_iff.mpr (List.mem_map.mpr ⟨b, (hmem b).mpr ⟨hb, by simpa [known] using hk⟩, rfl⟩), rfl⟩ _
    intro w hw e
    obtain ⟨b', hb', rfl⟩ := List.mem_map.mp (h4.mem_iff.mp hw)
    simp only at e
    subst e
    rfl

/-- Packing itself cannot fail unless some node's header claims more entries than fit. -/
theorem crunch_ok (crc : Bytes → UInt32) (img : Nat → Bytes) (ranges : List (Nat × Nat))
    (h : ∀ b, known crc img b = true → ∃ p, packBlock (metadataBlockType crc (img b)) (img b) = some p) : ∃ fs, crunch crc img ranges = some fs := by
  have : ∀ (bs : List Nat) s, ∃ s', crunchBlocks crc img bs s = some s' := by
    intro bs
    induction bs with
    | nil => intro s; exact ⟨s, rfl⟩
    | cons b bs ih =>
      intro s
      have h1 : ∃ s1, crunchBlock crc img s b = some s1 := by
        unfold crunchBlock
        by_cases hu : metadataBlockType crc (img b) = .unknown
        · rw [if_pos hu]; exact ⟨_, rfl⟩
        · rw [if_neg hu]
          obtain ⟨p, hp⟩ := h b (by simp [known, hu])
          rw [hp]
          simp only
          split <;> exact ⟨_, rfl⟩
      obtain ⟨s1, h1⟩ := h1
      obtain ⟨s', h'⟩ := ih s1
      exact ⟨s', by rw [crunchBlocks, h1]; exact h'⟩
  obtain ⟨s', hs⟩ := this (ranges.flatMap chunkBlocks) ⟨0, [], []⟩
  unfold crunch
  rw [hs]
  exact ⟨_, rfl⟩

/-- Runs exist: an image of 1024 blocks, none of which is metadata except that block 5 is a checksummed bitmap. -/
example (crc : Bytes → UInt32) : ∃ img : Nat → Bytes, (∀ b, (img b).length = 4096) ∧ (∀ b, ¬ Exceptional (img b)) ∧
    metadataBlockType crc (img 5) = .bitmap ∧ ∃ file, Packed crc ⟨id, id⟩ 4 1024 img file := by
  obtain ⟨blk, hb⟩ := Option.isSome_iff_exists.mp ((writeChecksum_isSome_iff crc (List.replicate 4096 0) .bitmap).mpr ⟨by rw [List.length_replicate]; rfl, by decide⟩)
  obtain ⟨w1, w2, w3, w4⟩ := write_then_type crc _ _ _ hb
  have hl : blk.length = 4096 := w3
  have hne : ¬ Exceptional blk := by
    rintro ⟨vs, h, -⟩
    have e : blk = leBytes 4 (leVal (blk.take 4)) ++ List.replicate 4092 0 := by
      have h1 := List.take_append_drop 4 blk
      rw [w4, List.drop_replicate] at h1
      have h2 := leBytes_leVal (blk.take 4)
      rw [List.length_take, hl] at h2
      have h3 : leBytes 4 (leVal (blk.take 4)) = blk.take 4 := h2
      rw [h3]
      exact h1.symm
    have hv : leVal (blk.take 4) < 2 ^ 32 := by
      have := leVal_lt (blk.take 4)
      rw [List.length_take, hl] at this
      exact this
    rw [e] at h
    have hz : List.replicate 4092 (0 : UInt8) = w32 0 ++ List.replicate 4088 0 := by
      exact (List.replicate_append_replicate (n := 4) (m := 4088) (a := (0 : UInt8))).symm
    rw [hz] at h
    unfold summarise at h
    generalize List.replicate 4088 (0 : UInt8) = rr at h
    simp only [Option.bind_eq_bind, Option.bind_eq_some_iff] at h
    obtain ⟨⟨a, i1⟩, h1, ⟨f, i2⟩, h2, h⟩ := h
    rw [show leU32 = leU 4 from rfl] at h1 h2
    rw [leU32_w32 _ hv] at h1
    cases h1
    rw [leU32_w32 0 (by decide)] at h2
    cases h2
    obtain ⟨_, _, _, _, _, _, _, _, _, _, h⟩ := h
    simp at h
  refine ⟨fun _ => blk, fun _ => hl, fun _ => hne, w1, ?_⟩
  have hall : ∀ r, ∃ fs, crunch crc (fun _ => blk) r = some fs := by
    intro r
    refine crunch_ok crc _ r (fun b _ => ?_)
    obtain ⟨p, hp, -⟩ := packLiteral_instr blk (by omega)
    exact ⟨p, by simp only [w1, packBlock]; exact hp⟩
  have : ∀ vecs : List (List (Nat × Nat)), ∃ outs : List (List Bytes), vecs.map (crunch crc fun _ => blk) = outs.map some := by
    intro vecs
    induction vecs with
    | nil => exact ⟨[], rfl⟩
    | cons v vecs ih =>
      obtain ⟨o, ho⟩ := hall v
      obtain ⟨os, hos⟩ := ih
      exact ⟨o :: os, by simp [ho, hos]⟩
  obtain ⟨outs, ho⟩ := this (mkChunkVecs 1024 (nrJobs 4 1024) (chunks 1024 (nrJobs 4 1024)))
  exact ⟨_, _, .refl _, outs, ho, _, .refl _, rfl⟩

end Verif.Pack
