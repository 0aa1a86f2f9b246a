import Verif.Model.CacheRepair
import Verif.Model.CacheWriteback
import Verif.Prop.CacheRestoreCheck
import Verif.Prop.Damage

/-!
# C64: `cache_repair`

On intact metadata the repair is exact; on any metadata, what it writes has the mappings of the dump of the input, which are entries of the input's
mapping array, and dirty bits that could not be read are taken to be set.
-/

namespace Verif.CacheM

open Verif.BT (Tree)
open Verif.Arr (ASt arrayOf)

/-- the configuration of the restorer that a repair makes -/
def Cfg.at (cfg : Cfg) (version : Nat) : Cfg := { cfg with version := version % 256 }

theorem repair_inv {cfg : Cfg} {d : Dev} {sb : Option Cache.Superblock} {dev : ASt Nat} {r : RSt} (h : repair cfg d sb dev = .ok r) :
    ∃ sb' evs, sb = some sb' ∧ dump d sb' true = .ok evs ∧ restore (cfg.at sb'.version) true evs dev = .ok r := by
  unfold repair at h
  cases sb with
  | none => cases h
  | some sb =>
    simp only at h
    cases hd : dump d sb true with
    | error e => rw [hd] at h; cases h
    | ok evs =>
      rw [hd] at h
      simp only at h
      refine ⟨sb, evs, rfl, hd, ?_⟩
      unfold Cfg.at
      cases hr : restore { cfg with version := sb.version % 256 } true evs dev with
      | error e => rw [hr] at h; cases h
      | ok r' => rw [hr] at h; cases h; rfl

/-! ## The form of a dump -/

theorem mapsIn_append (a b : List Ev) : mapsIn (a ++ b) = mapsIn a ++ mapsIn b := by
  induction a with
  | nil => rfl
  | cons e a ih => cases e <;> simp [mapsIn, ih]

theorem hintsIn_append (a b : List Ev) : hintsIn (a ++ b) = hintsIn a ++ hintsIn b := by
  induction a with
  | nil => rfl
  | cons e a ih => cases e <;> simp [hintsIn, ih]

theorem sbsIn_append (a b : List Ev) : sbsIn (a ++ b) = sbsIn a ++ sbsIn b := by
  induction a with
  | nil => rfl
  | cons e a ih => cases e <;> simp [sbsIn, ih]

theorem sbsIn_nil {l : List Ev} (h : ∀ e ∈ l, ∀ x, e ≠ .superblockB x) : sbsIn l = [] := by
  induction l with
  | nil => rfl
  | cons e l ih =>
    have h1 := h e (by simp)
    have h2 := ih fun x hx => h x (by simp [hx])
    cases e <;> simp [sbsIn, h2] at h1 ⊢

theorem emitHints_mem {valid : Nat → Bool} : ∀ {l : List (Nat × Nat)}, ∀ x ∈ emitHints valid l, ∃ c w, x = Ev.hint c (hintBytes w) := by
  intro l
  induction l with
  | nil => intro x hx; cases hx
  | cons p l ih =>
    intro x hx
    obtain ⟨w, c⟩ := p
    unfold emitHints at hx
    split at hx
    · rcases List.mem_cons.mp hx with rfl | hx
      · exact ⟨c, w, rfl⟩
      · exact ih x hx
    · exact ih x hx

theorem walkMaps_mem {d : Dev} {dirty : Nat → Mapping → Bool} {n : Nat} {m : List (Nat × Nat)} {evs : List Ev}
    (h : walkBlocks d.maps (visitMaps dirty n) m = .ok evs) : ∀ x ∈ evs, ∃ c w y, x = Ev.mapping c (ofWord w).oblock y := by
  intro x hx
  obtain ⟨e, -, ab, evs', -, h2, h3⟩ := (walkBlocks_sound h).2 x hx
  obtain ⟨w, c, -, -, -, rfl⟩ := emitMaps_mem h2 x h3
  exact ⟨c, w, _, rfl⟩

theorem oblock_lt (w : Nat) (h : w < 2 ^ 64) : (ofWord w).oblock < 2 ^ 48 := by
  unfold ofWord
  simp only [Nat.shiftRight_eq_div_pow]
  omega

/-- every array block of mappings holds 64-bit words -/
def Words64 (d : Dev) : Prop := ∀ b ab, d.maps b = some ab → ∀ w ∈ ab.values, w < 2 ^ 64

/-- whatever the device, a dump is: superblock, mappings, hints -/
theorem dump_shape {d : Dev} (hw : Words64 d) {sb : Cache.Superblock} {rep : Bool} {evs : List Ev} (h : dump d sb rep = .ok evs) :
    (sb.version = 1 ∨ sb.version = 2) ∧ ∃ body, evs = body ++ [.eof] ∧
      sbsIn body = [⟨[], sb.data_block_size, sb.cache_blocks, sb.policy_name, sb.policy_hint_size⟩] ∧
      ∀ m ∈ mapsIn body, m.2.1 < 2 ^ 48 := by
  have hms : ∀ {dirty : Nat → Mapping → Bool} {n : Nat} {m : List (Nat × Nat)} {evs : List Ev},
      walkBlocks d.maps (visitMaps dirty n) m = .ok evs → ∀ x ∈ evs, ∃ c o y, x = Ev.mapping c o y ∧ o < 2 ^ 48 := by
    intro dirty n m evs h x hx
    obtain ⟨e, -, ab, evs', h1, h2, h3⟩ := (walkBlocks_sound h).2 x hx
    obtain ⟨w, c, h4, -, -, rfl⟩ := emitMaps_mem h2 x h3
    exact ⟨c, _, _, rfl, oblock_lt w (hw _ ab h1 w (List.of_mem_zip h4).1)⟩
  unfold dump at h
  simp only at h
  have key : ∀ ms, (if sb.version = 1 then dumpV1 d sb.mapping_root sb.cache_blocks
      else if sb.version = 2 then dumpV2 d sb.mapping_root sb.cache_blocks sb.dirty_root rep else .error .err) = .ok ms →
      (sb.version = 1 ∨ sb.version = 2) ∧ ∀ x ∈ ms, ∃ c o y, x = Ev.mapping c o y ∧ o < 2 ^ 48 := by
    intro ms hk
    by_cases h1 : sb.version = 1
    · rw [if_pos h1] at hk
      refine ⟨Or.inl h1, ?_⟩
      unfold dumpV1 at hk
      cases hc : collectBlocks d sb.mapping_root with
      | error e => rw [hc] at hk; cases hk
      | ok m => simp only [hc] at hk; exact hms hk
    · rw [if_neg h1] at hk
      by_cases h2 : sb.version = 2
      · rw [if_pos h2] at hk
        refine ⟨Or.inr h2, ?_⟩
        unfold dumpV2 at hk
        cases hdr : sb.dirty_root with
        | none => rw [hdr] at hk; cases hk
        | some dr =>
          simp only [hdr] at hk
          split at hk
          · cases hk
          · cases hc : collectBlocks d sb.mapping_root with
            | error e => rw [hc] at hk; cases hk
            | ok m => simp only [hc] at hk; exact hms hk
      · rw [if_neg h2] at hk; cases hk
  generalize (if sb.version = 1 then dumpV1 d sb.mapping_root sb.cache_blocks
      else if sb.version = 2 then dumpV2 d sb.mapping_root sb.cache_blocks sb.dirty_root rep else .error .err) = R at h key
  cases R with
  | error e => cases h
  | ok ms =>
    simp only at h
    obtain ⟨hv, k⟩ := key ms rfl
    refine ⟨hv, ?_⟩
    unfold dumpHints at h
    cases hc : collectBlocks d sb.hint_root with
    | error e => simp only [hc] at h; cases h
    | ok m =>
      simp only [hc] at h
      cases hw : walkBlocks d.hints (visitHints (validIn ms)) m with
      | error e => simp only [hw] at h; cases h
      | ok hs =>
        simp only [hw] at h
        cases h
        have hh : ∀ x ∈ hs, ∃ c b, x = Ev.hint c b := by
          intro x hx
          obtain ⟨e, -, ab, evs', -, h2, h3⟩ := (walkBlocks_sound hw).2 x hx
          cases h2
          obtain ⟨c, w, rfl⟩ := emitHints_mem x h3
          exact ⟨c, _, rfl⟩
        have hm0 : mapsIn hs = [] := by
          have : ∀ {l : List Ev}, (∀ x ∈ l, ∃ c b, x = Ev.hint c b) → mapsIn l = [] := by
            intro l
            induction l with
            | nil => intro _; rfl
            | cons e l ih =>
              intro h
              obtain ⟨c, b, rfl⟩ := h e (by simp)
              exact ih fun x hx => h x (by simp [hx])
          exact this hh
        refine ⟨[.superblockB ⟨[], sb.data_block_size, sb.cache_blocks, sb.policy_name, sb.policy_hint_size⟩, .mappingsB] ++ ms ++
          [.mappingsE, .hintsB] ++ hs ++ [.hintsE, .superblockE], by simp, ?_, ?_⟩
        · simp only [sbsIn_append]
          rw [sbsIn_nil (l := ms) (fun e he x hx => by obtain ⟨c, o, y, h1, -⟩ := k e he; rw [h1] at hx; cases hx),
            sbsIn_nil (l := hs) (fun e he x hx => by obtain ⟨c, b, h1⟩ := hh e he; rw [h1] at hx; cases hx)]
          rfl
        · intro x hx
          simp only [mapsIn_append, hm0] at hx
          have hx : x ∈ mapsIn ms := by simpa [mapsIn] using hx
          have : ∀ {l : List Ev}, (∀ x ∈ l, ∃ c o y, x = Ev.mapping c o y ∧ o < 2 ^ 48) → ∀ x ∈ mapsIn l, x.2.1 < 2 ^ 48 := by
            intro l
            induction l with
            | nil => intro _ x hx; cases hx
            | cons e l ih =>
              intro h x hx
              obtain ⟨c, o, y, rfl, ho⟩ := h e (by simp)
              rcases List.mem_cons.mp hx with rfl | hx
              · exact ho
              · exact ih (fun x hx => h x (by simp [hx])) x hx
          exact this k x hx

theorem mem_mapsIn {l : List Ev} {c o : Nat} {y : Bool} : (c, o, y) ∈ mapsIn l ↔ Ev.mapping c o y ∈ l := by
  induction l with
  | nil => simp [mapsIn]
  | cons e l ih => cases e <;> simp [mapsIn, ih]

/-! ## Any metadata -/

/-- **C64**, any metadata: if `cache_repair` succeeds, a dump of the output lists the mappings of the dump (with `--repair`) of the input, each with its
dirty flag, and for every mapping the hint of that dump or zeroes; the numbers and the policy of the superblock survive.  Every such mapping
is an entry of a block of the input's mapping array, whose blocks could all be read, and is clean only if its dirty bit could be read and is clear. -/
theorem repair_sound {cfg : Cfg} {n max : Nat} (he8 : 0 < cfg.epb8) (he4 : 0 < cfg.epb4) (hL : 2 ≤ cfg.capL) (hI : 4 ≤ cfg.capI) (hn : n < 2 ^ 64)
    {d : Dev} (hrd : ∀ b x, d.rd false b = some x → d.rd true b = some x) (hw : Words64 d) {sb : Cache.Superblock} (h0 : 0 < sb.cache_blocks)
    (h32 : sb.cache_blocks < 2 ^ 32) (hsm : SmOk n max (cfg.at sb.version)) {dev : ASt Nat} (hdev : New n max dev) {r : RSt}
    (h : repair cfg d (some sb) dev = .ok r) :
    ∃ evs out, dump d sb true = .ok evs ∧ r.out = some out ∧ out.version = sb.version ∧
      (∀ rep, dump (devOf cfg.epb8 cfg.epb4 n r.dev) out rep =
        .ok (docOf ⟨[], sb.data_block_size, sb.cache_blocks, sb.policy_name, sb.policy_hint_size⟩ (mapsIn evs)
          (dumpHintsOf (mapsIn evs) (hintsIn evs)))) ∧
      ArrayRead d d.maps sb.mapping_root ∧
      ∀ c o y, (c, o, y) ∈ mapsIn evs → c < sb.cache_blocks ∧ FromArray d sb.mapping_root c o ∧
        (sb.version = 2 → ∃ dr, sb.dirty_root = some dr ∧ (y = false → (readDirty d dr sb.cache_blocks).2 c = some false)) := by
  obtain ⟨sb', evs, e1, e2, e3⟩ := repair_inv h
  cases e1
  obtain ⟨hv, body, hb1, hb2, hb3⟩ := dump_shape hw e2
  have hver : (cfg.at sb.version).version = sb.version := by unfold Cfg.at; rcases hv with h | h <;> simp [h]
  have hmap : mapsIn evs = mapsIn body := by rw [hb1, mapsIn_append]; simp [mapsIn]
  have hhint : hintsIn evs = hintsIn body := by rw [hb1, hintsIn_append]; simp [hintsIn]
  rw [hb1] at e3
  obtain ⟨sb1, out, s1, s2, -, -, s5, -, -, -, -, -, s11, -⟩ := restored_dump (cfg := cfg.at sb.version) (by rw [hver]; exact hv) he8 he4 hL hI hn hsm hdev e3
  rw [hb2] at s1
  cases s1
  have hs := dump_sound hrd e2
  refine ⟨evs, out, e2, s2, by rw [s5, hver], ?_, hs.1, ?_⟩
  · intro rep
    rw [hmap, hhint]
    exact s11 h0 h32 hb3 rep
  · intro c o y hm
    obtain ⟨k1, k2, k3⟩ := hs.2.2.2 c o y (mem_mapsIn.mp hm)
    refine ⟨k1, k2, fun h2 => ?_⟩
    obtain ⟨dr, r1, r2⟩ := k3 h2
    refine ⟨dr, r1, fun hy => ?_⟩
    rw [hy] at r2
    cases hg : (readDirty d dr sb.cache_blocks).2 c with
    | none => rw [hg] at r2; cases r2
    | some v => rw [hg] at r2; rw [show false = v from r2]

/-- **C64**: whatever the damage, if `cache_repair` succeeds on a cache with hints of four bytes, a full `cache_check` of the output succeeds exactly if
no origin block is mapped twice. -/
theorem repair_checked {epb : Nat} {cfg : Cfg} {n max : Nat} (he8 : 0 < cfg.epb8) (he4 : 0 < cfg.epb4) (hL : 2 ≤ cfg.capL) (hI : 4 ≤ cfg.capI)
    (hz : SmSize epb n) (hsw : cfg.writeSm = smWriter epb) {d : Dev} (hw : Words64 d) {sb : Cache.Superblock} (h32 : sb.cache_blocks < 2 ^ 32)
    (h4 : sb.policy_hint_size = 4) {dev : ASt Nat} (hdev : New n max dev) {r : RSt} (h : repair cfg d (some sb) dev = .ok r)
    {wr : Nat → Bool} {sbWr : Bool} {o : COpts} (hfull : o.full) :
    ∃ evs, dump d sb true = .ok evs ∧
      ((check wr sbWr o rootIn (imageOf cfg n r)).2 = none ↔ (mapsIn evs).Pairwise fun a b => a.2.1 ≠ b.2.1) := by
  obtain ⟨sb', evs, e1, e2, e3⟩ := repair_inv h
  cases e1
  obtain ⟨hv, body, hb1, hb2, hb3⟩ := dump_shape hw e2
  have hver : (cfg.at sb.version).version = sb.version := by unfold Cfg.at; rcases hv with h | h <;> simp [h]
  have hmap : mapsIn evs = mapsIn body := by rw [hb1, mapsIn_append]; simp [mapsIn]
  rw [hb1] at e3
  refine ⟨evs, e2, ?_⟩
  rw [hmap]
  exact (restore_check (cfg := cfg.at sb.version) (by rw [hver]; exact hv) he8 he4 hL hI hz hsw hdev e3 hb2 h4 h32 hb3 hfull).1

/-! ## Intact metadata -/

/-- the mappings of a cache -/
def mapsOf (nr : Nat) (am : Nat → Nat) (dirty : Nat → Bool) : List (Nat × Nat × Bool) :=
  ((List.range nr).filter fun c => (ofWord (am c)).isValid).map fun c => (c, (ofWord (am c)).oblock, dirty c)

/-- … and their hints -/
def hintsOf (nr : Nat) (am ah : Nat → Nat) : List (Nat × Bytes) :=
  ((List.range nr).filter fun c => (ofWord (am c)).isValid).map fun c => (c, hintBytes (ah c))

theorem flatMap_ifs {α β : Type} (p : α → Bool) (f : α → β) (l : List α) :
    (l.flatMap fun c => if p c then [f c] else []) = (l.filter p).map f := by
  induction l with
  | nil => rfl
  | cons a l ih =>
    rw [List.flatMap_cons, ih, List.filter_cons]
    by_cases h : p a = true
    · rw [if_pos h, if_pos h]; rfl
    · rw [if_neg h, if_neg h]; rfl

theorem dump_docOf {epb8 epb4 n : Nat} (he8 : 0 < epb8) (he4 : 0 < epb4) {sb : Cache.Superblock} {s : ASt Nat} {am ad ah : Nat → Nat}
    (hd : OnDisk epb8 epb4 n sb s am ad ah) (hv : sb.version = 1 ∨ sb.version = 2) (h0 : 0 < sb.cache_blocks)
    (h32 : sb.cache_blocks < 2 ^ 32) (rep : Bool) :
    dump (devOf epb8 epb4 n s) sb rep = .ok (docOf ⟨[], sb.data_block_size, sb.cache_blocks, sb.policy_name, sb.policy_hint_size⟩
      (mapsOf sb.cache_blocks am (dirtyOf sb.version am ad)) (hintsOf sb.cache_blocks am ah)) := by
  rw [dump_exact he8 he4 hd hv h0 h32 rep]
  unfold mapEvs hintEvs docOf mapsOf hintsOf
  rw [flatMap_ifs, flatMap_ifs, List.map_map, List.map_map]
  rfl

theorem mapsOf_valid {nr : Nat} {am ah : Nat → Nat} (h64 : ∀ c, am c < 2 ^ 64) (dirty : Nat → Bool) :
    Valid nr (mapsOf nr am dirty) (hintsOf nr am ah) := by
  have hs : ((List.range nr).filter fun c => (ofWord (am c)).isValid).Pairwise (· < ·) := List.Pairwise.filter _ List.pairwise_lt_range
  refine ⟨?_, List.pairwise_map.mpr (hs.imp fun h => h), ?_, List.pairwise_map.mpr (hs.imp fun h => h)⟩
  · intro m hm
    obtain ⟨c, hc, rfl⟩ := List.mem_map.mp hm
    exact ⟨List.mem_range.mp (List.mem_filter.mp hc).1, oblock_lt _ (h64 c)⟩
  · intro m hm
    obtain ⟨c, hc, rfl⟩ := List.mem_map.mp hm
    exact ⟨List.mem_range.mp (List.mem_filter.mp hc).1, by unfold hintBytes; rw [leBytes_length]⟩

/-- **C64**: on intact metadata of either version `cache_repair` succeeds or runs out of space, and dumps of input and output are the same. -/
theorem repair_exact {epb8 epb4 m : Nat} (hi8 : 0 < epb8) (hi4 : 0 < epb4) {sb : Cache.Superblock} {s : ASt Nat} {am ad ah : Nat → Nat}
    (hd : OnDisk epb8 epb4 m sb s am ad ah) (h64 : ∀ c, am c < 2 ^ 64) (hv : sb.version = 1 ∨ sb.version = 2) (h0 : 0 < sb.cache_blocks)
    (h32 : sb.cache_blocks < 2 ^ 32) {cfg : Cfg} {n max : Nat} (he8 : 0 < cfg.epb8) (he4 : 0 < cfg.epb4) (hL : 2 ≤ cfg.capL) (hI : 4 ≤ cfg.capI)
    (hn : n < 2 ^ 64) (hsm : SmOk n max (cfg.at sb.version)) {dev : ASt Nat} (hdev : New n max dev) :
    match repair cfg (devOf epb8 epb4 m s) (some sb) dev with
    | .ok r => ∃ out, r.out = some out ∧ out.version = sb.version ∧ out.clean_shutdown = true ∧ ∀ rep,
        dump (devOf cfg.epb8 cfg.epb4 n r.dev) out rep = dump (devOf epb8 epb4 m s) sb rep
    | .error (.restore (.arr (.io e))) => e.Resource
    | .error _ => False := by
  have hver : (cfg.at sb.version).version = sb.version := by unfold Cfg.at; rcases hv with h | h <;> simp [h]
  have hdump := dump_docOf hi8 hi4 hd hv h0 h32
  have hval := mapsOf_valid (nr := sb.cache_blocks) (ah := ah) h64 (dirtyOf sb.version am ad)
  have hrt := roundtrip (cfg := cfg.at sb.version) (by rw [hver]; exact hv) he8 he4 hL hI hn hsm true
    (sb := ⟨[], sb.data_block_size, sb.cache_blocks, sb.policy_name, sb.policy_hint_size⟩) hval h0 h32 rfl
    (by unfold mapsOf hintsOf; rw [List.map_map, List.map_map]; rfl) hdev
  unfold repair
  simp only [hdump]
  rw [show ({ cfg with version := sb.version % 256 } : Cfg) = cfg.at sb.version from rfl]
  cases hr : restore (cfg.at sb.version) true (docOf ⟨[], sb.data_block_size, sb.cache_blocks, sb.policy_name, sb.policy_hint_size⟩
      (mapsOf sb.cache_blocks am (dirtyOf sb.version am ad)) (hintsOf sb.cache_blocks am ah)) dev with
  | error e =>
    rw [hr] at hrt
    cases e with
    | arr e => cases e <;> exact hrt
    | _ => exact hrt
  | ok r =>
    rw [hr] at hrt
    obtain ⟨out, o1, o2, o3⟩ := hrt
    have hacc := restore_accepts (cfg := cfg.at sb.version) (by rw [hver]; exact hv) he8 he4 hL hI hn hsm true
      (sb := ⟨[], sb.data_block_size, sb.cache_blocks, sb.policy_name, sb.policy_hint_size⟩) hval h0 hdev
    rw [hr] at hacc
    obtain ⟨out', ad', p1, -, -, -, p2, -⟩ := (show Done _ _ _ _ _ _ r from hacc).out
    rw [o1] at p1
    cases p1
    exact ⟨out, o1, by rw [p2, hver], o2, o3⟩

/-! ## Examples, and what a repair does not keep -/

/-- apply `f` to the metadata restored from a document, and to what `cache_repair` makes of it -/
def repaired {α : Type} (version : Nat) (clean : Bool) (damage : Dev → Dev) (doc : List Ev) (f : Dev → Cache.Superblock → Option α) : Option (α × α) :=
  match restore (fullCfg version) clean doc newDev with
  | .error _ => none
  | .ok r =>
    let d := damage (devOf 3 3 24 r.dev)
    match repair (fullCfg version) d r.out newDev with
    | .error _ => none
    | .ok q =>
      match r.out, q.out with
      | some sb, some out =>
        match f d sb, f (devOf 3 3 24 q.dev) out with
        | some a, some b => some (a, b)
        | _, _ => none
      | _, _ => none

/-- the mappings of a dump -/
def dumpedMaps (rep : Bool) (d : Dev) (sb : Cache.Superblock) : Option (List (Nat × Nat × Bool)) :=
  match dump d sb rep with | .ok evs => some (mapsIn evs) | .error _ => none

/-- the blocks that `cache_writeback` would write back, from cache to origin -/
def writesBack (d : Dev) (sb : Cache.Superblock) : Option (List (Nat × Nat)) :=
  match Wb.mkSelector d sb with
  | .error _ => none
  | .ok sel => match Wb.allOps d sb.mapping_root sel with | .ok ops => some (ops.map fun o => (o.src, o.dst)) | .error _ => none

def repairDoc : List Ev := docOf (smallSb 4) [(0, 9, true), (4, 7, false)] [(0, [1, 2, 3, 4]), (4, [4, 3, 2, 1])]

/-- intact metadata of both versions -/
example : repaired 1 true id repairDoc (dumpedMaps false) = some ([(0, 9, true), (4, 7, false)], [(0, 9, true), (4, 7, false)]) := by decide +kernel
example : repaired 2 true id repairDoc (dumpedMaps false) = some ([(0, 9, true), (4, 7, false)], [(0, 9, true), (4, 7, false)]) := by decide +kernel

/-- the dirty bits cannot be read: they are taken to be set -/
example : repaired 2 true (fun d => { d with words := fun _ => none }) repairDoc (dumpedMaps true) =
    some ([(0, 9, true), (4, 7, true)], [(0, 9, true), (4, 7, true)]) := by decide +kernel

/-- C64 is false of a cache that was not shut down cleanly, where every block counts as dirty: `cache_writeback` of the input writes both blocks
back, but the output claims a clean shutdown, and `cache_writeback` of it writes only one of them back. -/
theorem repair_unclean_refuted : repaired 2 false id repairDoc writesBack = some ([(0, 9), (4, 7)], [(0, 9)]) ∧
    repaired 1 false id repairDoc writesBack = some ([(0, 9), (4, 7)], [(0, 9)]) := by decide +kernel

/-- a cache without blocks cannot be repaired -/
theorem repair_empty_refuted {epb8 epb4 m : Nat} (hi8 : 0 < epb8) {sb : Cache.Superblock} {s : ASt Nat} {am ad ah : Nat → Nat}
    (hd : OnDisk epb8 epb4 m sb s am ad ah) (hv : sb.version = 1) (h0 : sb.cache_blocks = 0) (cfg : Cfg) (dev : ASt Nat) :
    repair cfg (devOf epb8 epb4 m s) (some sb) dev = .error (.dump .panic) := by
  unfold repair
  simp only [dump_empty_panics hi8 hd (Or.inl hv) h0 true]

end Verif.CacheM
