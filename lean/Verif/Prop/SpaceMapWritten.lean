import Verif.Prop.SpaceMapCheck
import Verif.Prop.SpaceMapMetadata

/-!
# C19 and C20 together: a space map that was just written passes the check
-/

namespace Verif.SMC

open Verif.BT (Blk Event WSt Tree)
open Verif.SMD (SVal DiskCount SSt)

/-- the bitmaps on the device, as the checker reads them: a block that the writer wrote as a bitmap has the checksum of one -/
def view (S : SSt) (loc : Nat) : Option (Bool × List BE) := (S.readBm loc).map fun es => (true, es)

theorem checkEntries_congr {rd rd' : Nat → Option (Bool × List BE)} (exp : List Nat) : ∀ (locs : List Nat) (b0 : Nat),
    (∀ loc ∈ locs, rd loc = rd' loc) → checkLoop rd exp locs b0 = checkLoop rd' exp locs b0 := by
  intro locs
  induction locs with
  | nil => intro b0 _; rfl
  | cons l ls ih =>
    intro b0 h
    unfold checkLoop
    rw [h l (by simp)]
    cases rd' l with
    | none => rfl
    | some p => simp only [ih _ fun x hx => h x (List.mem_cons_of_mem _ hx)]

theorem filled_noEmpty {V : Type} {capL capI : Nat} (hL : 2 ≤ capL) (hI : 2 ≤ capI) : ∀ (h : Nat) (t : Tree V h), Bld.Filled capL capI h t →
    t.NoEmpty h := by
  intro h
  induction h with
  | zero =>
    intro t hf e
    have h1 := hf.1
    have e : t.2 = [] := e
    rw [e, List.length_nil] at h1
    omega
  | succ h ih =>
    intro t hf
    refine ⟨?_, fun c hc => ih c.2 (hf.2.2 c hc)⟩
    intro e
    have h1 := hf.1
    rw [e, List.length_nil] at h1
    omega

theorem rootFilled_noEmpty {V : Type} {capL capI : Nat} (hL : 2 ≤ capL) (hI : 2 ≤ capI) (h : Nat) (t : Tree V h) (hf : Bld.RootFilled capL capI h t) :
    h = 0 ∨ t.NoEmpty h := by
  cases h with
  | zero => exact Or.inl rfl
  | succ h =>
    refine Or.inr ⟨?_, fun c hc => filled_noEmpty hL hI h c.2 (hf.2.2 c hc)⟩
    intro e
    have h1 := hf.1
    rw [e, List.length_nil] at h1
    omega

/-- If the counts on disk are exactly `exp`, and the overflow tree has only counts of three and more, the bitmaps pass. -/
theorem checkLow_view {epb : Nat} (he : 0 < epb) {S : SSt} {ies : List IndexEntry} {ov : List (Nat × SVal)} {exp : List Nat}
    (hbm : ∀ ie ∈ ies, ∃ es, S.readBm ie.blocknr = some es ∧ es.length = epb ∧ ∀ n, BE.small n ∈ es → n ≤ 2)
    (hcount : ∀ b c, exp[b]? = some c → DiskCount epb S.readBm ies ov b c) (honly : ∀ e ∈ ov, ∀ c, e.2 = .rc c → 3 ≤ c) :
    checkLow (view S) exp ies = some [] := by
  -- only the bitmaps of the index matter
  let rd' : Nat → Option (Bool × List BE) := fun loc => if loc ∈ ies.map (·.blocknr) then view S loc else none
  have hview : ∀ ie ∈ ies, ∃ es, rd' ie.blocknr = some (true, es) ∧ S.readBm ie.blocknr = some es ∧ es.length = epb := by
    intro ie hie
    obtain ⟨es, h1, h2⟩ := hbm ie hie
    refine ⟨es, ?_, h1, h2.1⟩
    show (if _ then _ else _) = _
    rw [if_pos (List.mem_map.mpr ⟨ie, hie, rfl⟩), view, h1]
    rfl
  have hlen : ∀ loc t es, rd' loc = some (t, es) → es.length = epb := by
    intro loc t es h
    have hm : loc ∈ ies.map (·.blocknr) := by
      apply Classical.byContradiction
      intro hn
      have h : (if _ then _ else _) = _ := h
      rw [if_neg hn] at h
      cases h
    obtain ⟨ie, hie, rfl⟩ := List.mem_map.mp hm
    obtain ⟨es', h1, -, h3⟩ := hview ie hie
    rw [h1] at h
    cases h
    exact h3
  have hcongr : checkLow (view S) exp ies = checkLow rd' exp ies := by
    unfold checkLow
    rw [checkEntries_congr exp (rd := view S) (rd' := rd') _ 0]
    intro loc hl
    show _ = (if _ then _ else _)
    rw [if_pos hl]
  rw [hcongr]
  refine checkLow_complete he hlen (fun ie hie => (hview ie hie).imp fun es h => h.1) ?_ ?_
  · intro b c hc hlt
    cases hcount b c hc with
    | small ie es h1 h2 h3 =>
      obtain ⟨es', g1, g2, -⟩ := hview ie (List.mem_of_getElem? h1)
      rw [h2] at g2
      cases g2
      exact ⟨ie.blocknr, true, es, by rw [List.getElem?_map, h1]; rfl, g1, h3⟩
    | overflow ie es h1 h2 h3 h4 =>
      have := honly _ h4 c rfl
      omega
  · intro b c hc hge
    cases hcount b c hc with
    | small ie es h1 h2 h3 =>
      obtain ⟨es', g1, g2, g3⟩ := hbm ie (List.mem_of_getElem? h1)
      rw [h2] at g1
      cases g1
      have := g3 c (List.mem_of_getElem? h3)
      omega
    | overflow ie es h1 h2 h3 h4 =>
      obtain ⟨es', g1, g2, -⟩ := hview ie (List.mem_of_getElem? h1)
      rw [h2] at g2
      cases g2
      exact ⟨ie.blocknr, true, es, by rw [List.getElem?_map, h1]; rfl, g1, h3⟩

theorem incEntries_some : ∀ (ies : List IndexEntry) (s : WSt SVal), 0 < s.mx → (∀ b ∈ ies.map (·.blocknr), b < s.nr ∧ s.seen b = 0) →
    (ies.map (·.blocknr)).Nodup → ∃ t, incEntries ies s = some t := by
  intro ies
  induction ies with
  | nil => intro s _ _ _; exact ⟨s, rfl⟩
  | cons ie ies ih =>
    intro s hmx h hnd
    rw [List.map_cons, List.nodup_cons] at hnd
    obtain ⟨h1, h2⟩ := h ie.blocknr (by simp)
    unfold incEntries
    unfold WSt.smInc
    rw [if_pos h1, if_pos (by omega)]
    refine ih _ hmx ?_ hnd.2
    intro b hb
    obtain ⟨g1, g2⟩ := h b (by rw [List.map_cons]; exact List.mem_cons_of_mem _ hb)
    have : b ≠ ie.blocknr := fun e => hnd.1 (e ▸ hb)
    exact ⟨g1, by simp only [if_neg this]; exact g2⟩

theorem lt_of_pos {n max : Nat} {s : SM.Core} (hi : s.Inv n max) {b : Nat} (h : 0 < s.abs b) : b < n := by
  apply Classical.byContradiction
  intro hn
  have e := SM.Core.getElem?_abs s b
  rw [hi.len, if_neg hn] at e
  unfold SM.Core.abs at h
  rw [List.getD_eq_getElem?_getD, e] at h
  simp at h

theorem stored_mem {V : Type} {mem : Nat → Option (Blk V)} : ∀ (h : Nat) (t : Tree V h) (r : Bool), t.Stored (fun _ b => mem b) r h →
    ∀ b ∈ t.blocks h, ∃ nd, mem b = some nd := by
  intro h
  induction h with
  | zero =>
    intro t r hs b hb
    simp only [BT.Tree.blocks, List.mem_singleton] at hb
    exact ⟨_, by rw [hb]; exact hs⟩
  | succ h ih =>
    intro t r hs b hb
    simp only [BT.Tree.blocks, List.mem_cons] at hb
    rcases hb with rfl | hb
    · exact ⟨_, hs.1⟩
    · obtain ⟨c, hc, hbc⟩ := List.mem_flatMap.mp hb
      exact ih c.2 false (hs.2 c hc) b hbc

/-- **C20**, no false alarms, for the data space map: what `write_disk_sm` wrote passes the check against the counts it was given, without
leaks, provided that none of its blocks was counted before. -/
theorem checkDisk_written {epb n max : Nat} (he : 0 < epb) {cs : List Nat} {S0 S : SSt} {root : SMRoot} {hx ho : Nat} {tx : Tree SVal hx} {to : Tree SVal ho}
    {ies : List IndexEntry} (h : SMD.DiskSM epb n max cs S0 S root hx ho tx to ies) {st : WSt SVal} (hnr : st.nr = n) (hmx : 0 < st.mx)
    (hun : ∀ b, 0 < st.seen b → 0 < S0.bt.sm.abs b) {fuel : Nat} (hfx : hx < fuel) (hfo : ho < fuel) :
    ∃ st', checkDisk (fun _ => true) (fun _ b => S.bt.mem b) (view S) fuel root cs st = some ([], st') := by
  have hpos : ∀ b ∈ tx.blocks hx ++ to.blocks ho ++ ies.map (·.blocknr), b < n ∧ st.seen b = 0 := by
    intro b hb
    have h0 := h.fresh b hb
    have h1 := h.rc b
    have h2 := List.count_pos_iff.mpr hb
    refine ⟨lt_of_pos h.sm (by omega), ?_⟩
    apply Classical.byContradiction
    intro hn
    have := hun b (by omega)
    omega
  have hcx : LW.Clean S.bt.mem st.nr hx tx := ⟨h.xstored, h.xordered, rootFilled_noEmpty (by decide) (by decide) hx tx h.xfilled,
    fun b hb => by rw [hnr]; exact (hpos b (by simp [hb])).1⟩
  have hco : LW.Clean S.bt.mem st.nr ho to := ⟨h.ostored, h.oordered, rootFilled_noEmpty (by decide) (by decide) ho to h.ofilled,
    fun b hb => by rw [hnr]; exact (hpos b (by simp [hb])).1⟩
  have hn3 : ∀ b ∈ to.blocks ho, b ∉ ies.map (·.blocknr) := by
    intro b hb hi
    obtain ⟨ie, hie, rfl⟩ := List.mem_map.mp hi
    obtain ⟨es, g1, -⟩ := h.bitmaps ie hie
    obtain ⟨nd, hnd⟩ := stored_mem ho to true h.ostored _ hb
    unfold SSt.readBm at g1
    rw [hnd] at g1
    cases g1
  obtain ⟨s1, a1, a2, a3, a4⟩ := gatherDisk_clean (io := fun _ => true) ⟨hcx, h.xblk, h.xcontents⟩ hmx
    (fun b hb => (hpos b (by simp [hb])).2) hfx rfl
  obtain ⟨s2, hs2⟩ := incEntries_some ies s1 (by rw [a2]; exact hmx) (by
    intro b hb
    have := hpos b (List.mem_append.mpr (Or.inr hb))
    refine ⟨by rw [a1, hnr]; exact this.1, ?_⟩
    rw [a3 b (fun hbx => (h.apart b hbx).2 hb)]
    exact this.2) h.nodup
  obtain ⟨b1, b2, b3⟩ := incEntries_frame ies s1 s2 hs2
  have hov : ∀ e ∈ to.contents ho, OvOk cs e := by
    intro e he'
    obtain ⟨c, g1, g2, g3⟩ := h.only e he'
    exact ⟨c, g3, g1⟩
  have hw := overflow_complete (mem := S.bt.mem) (exp := cs) (nr := st.nr) (fuel := fuel) (path := [0])
    (s := { s2 with log := [], fails := fun _ => false }) (by simp only; rw [b2, a2]; exact hmx) hco hfo (by
      intro b hb
      have := hpos b (by simp [hb])
      simp only
      refine ⟨by rw [b1, a1, hnr]; exact this.1, ?_⟩
      rw [b3 b (hn3 b hb), a3 b (fun hbx => (h.apart b hbx).1 hb)]
      exact this.2) hov (io := fun _ => true) rfl
  have hl := checkLow_view he (ov := to.contents ho) (exp := cs) h.bitmaps (fun b c hc => (h.count b c hc c).mpr rfl) (by
    intro e he' c hc
    obtain ⟨c', g1, g2, g3⟩ := h.only e he'
    rw [g3] at hc
    cases hc
    exact g2)
  unfold checkDisk
  rw [a4, hs2]
  simp only [Option.map_some]
  rw [← h.oblk, if_pos hw, hl]
  exact ⟨_, rfl⟩

/-- **C20**, no false alarms, for the metadata space map: what `write_metadata_sm` wrote passes the check against the counts in core at the
end, without leaks. -/
theorem checkMeta_written {epb n max k : Nat} (he : 0 < epb) {S0 S : SSt} {root : SMRoot} {ho : Nat} {to : Tree SVal ho}
    {ies : List IndexEntry} (h : SMD.MetaSM epb n max k S0 S root ies ho to) {fuel : Nat} (hf : ho < fuel) {io : Nat → Bool}
    (hio : io root.ref_count_root = true) : checkMeta io (fun _ b => S.bt.mem b) (view S) fuel n root S.bt.sm.counts ies = some [] := by
  have hget : ∀ b c, S.bt.sm.counts[b]? = some c → b < n ∧ c = S.bt.sm.abs b := by
    intro b c hc
    have := (List.getElem?_eq_some_iff.mp hc).1
    rw [h.sm.len] at this
    refine ⟨this, ?_⟩
    rw [SM.Core.getElem?_abs, h.sm.len, if_pos this] at hc
    cases hc
    rfl
  have hlt : ∀ b ∈ to.blocks ho, b < n := by
    intro b hb
    have h0 := h.fresh b (by simp [hb])
    have h1 := h.rc b
    have h2 : 0 < (root.bitmap_root :: (to.blocks ho ++ ies.map (·.blocknr))).count b := List.count_pos_iff.mpr (by simp [hb])
    exact lt_of_pos h.sm (by omega)
  have hw := overflow_complete (mem := S.bt.mem) (exp := S.bt.sm.counts) (nr := n) (fuel := fuel) (path := [0])
    (s := WSt.fresh n 1 true) Nat.one_pos ⟨h.ostored, h.oordered, rootFilled_noEmpty (by decide) (by decide) ho to h.ofilled, hlt⟩ hf
    (fun b hb => ⟨hlt b hb, rfl⟩) (by
      intro e he'
      obtain ⟨g1, g2, g3⟩ := h.only e he'
      exact ⟨_, g3, by rw [SM.Core.getElem?_abs, h.sm.len, if_pos g1]⟩) (io := io) (by rw [h.oblk]; exact hio)
  have hl := checkLow_view he (ov := to.contents ho) (exp := S.bt.sm.counts) h.bitmaps (by
    intro b c hc
    obtain ⟨g1, g2⟩ := hget b c hc
    exact (h.count b g1 c).mpr g2) (by
    intro e he' c hc
    obtain ⟨g1, g2, g3⟩ := h.only e he'
    rw [g3] at hc
    cases hc
    exact g2)
  unfold checkMeta
  simp only
  rw [← h.oblk, if_pos hw, hl]

/-- not vacuous: a space map of seven blocks is written and checked, and checked against other counts -/
example : ∃ r, SMD.writeDiskSm 4 [0, 1, 5, 2, 0, 3, 7] 5 ⟨⟨fun _ => none, SM.Core.new 100 10, [], []⟩, fun _ => none⟩ = .ok r ∧
    (checkDisk (fun _ => true) (fun _ b => r.2.bt.mem b) (view r.2) 3 r.1 [0, 1, 5, 2, 0, 3, 7] (WSt.fresh 10 9 false)).map (·.1) = some [] ∧
    (checkDisk (fun _ => true) (fun _ b => r.2.bt.mem b) (view r.2) 3 r.1 [0, 0, 5, 2, 0, 3, 7] (WSt.fresh 10 9 false)).map (·.1) = some [⟨0, 0⟩] ∧
    (checkDisk (fun _ => true) (fun _ b => r.2.bt.mem b) (view r.2) 3 r.1 [0, 1, 5, 2, 1, 3, 7] (WSt.fresh 10 9 false)).map (·.1) = none := by
  refine ⟨_, rfl, rfl, rfl, rfl⟩

end Verif.SMC
