import Verif.Model.EraTool
import Verif.Prop.EraRestore
import Verif.Prop.EraCheck
import Verif.Prop.CacheRestoreCheck

/-!
# C61: `era_restore` as a whole, and `era_check` of what it wrote

The specification of a document is what its events say (`Doc`): superblock, eras, and writesets with the ranges marked in them.
-/

namespace Verif.EraT

open Verif.BT (Tree)
open Verif.Bld (Sorted)
open Verif.Arr (ASt AB AErr pushList completeArray divUp Part Ext Grown Stored arrayOf part_new push_part push_part_pos complete_part)
open Verif.CacheM (RErr SmImage RPost InBlocks At posOf at_push at_le written New SmSize smWriter smWriter_post smOver_grown rootIn)
open Verif.Xml (EEv ESb)
open Verif.EraC (wsWord wsBits wsRoot)

/-! ## Specification -/

/-- what a document says: superblocks, eras (block, era), closed writesets (era, number of bits, marked ranges) in the order they were closed,
and the writeset that is open -/
structure Doc where
  sbs : List ESb
  eras : List (Nat × Nat)
  sets : List (Nat × Nat × List (Nat × Nat))
  opn : Option (Nat × Nat × List (Nat × Nat))

/-- nothing read -/
def Doc.empty : Doc := ⟨[], [], [], none⟩

/-- one event more -/
def Doc.add (d : Doc) : EEv → Doc
  | .sbB sb => { d with sbs := d.sbs ++ [sb] }
  | .sbE => d
  | .wsB e n => { d with opn := some (e, n, []) }
  | .wsE => match d.opn with | some w => { d with sets := d.sets ++ [w], opn := none } | none => d
  | .blocks b len => { d with opn := d.opn.map fun w => (w.1, w.2.1, w.2.2 ++ [(b, len)]) }
  | .eraB => d
  | .eraE => d
  | .era b e => { d with eras := d.eras ++ [(b, e)] }
  | .eof => d

/-- a whole document -/
def docOf (evs : List EEv) : Doc := evs.foldl Doc.add .empty

/-- the writesets by era: for each era the last one of the document -/
def byEra (l : List (Nat × Nat × List (Nat × Nat))) : List (Nat × Nat × List (Nat × Nat)) := l.foldl (fun m w => Rst.insertId w.1 w.2 m) []

/-- the words of the bitset restored from ranges, in the code's way (C37 says how they relate to the ranges) -/
def pushesW (rs : List (Nat × Nat)) : List (Nat × Nat) := (rs.foldl EraR.blocksW ⟨0, 0, []⟩).push.pushes

/-! ## Pushing -/

theorem blocksTo_eq (s : EraR.RSt) (first last : Nat) : EraR.blocksTo s first last =
    if first / 64 = last / 64 then
      { EraR.move s (first / 64) with buf := (EraR.move s (first / 64)).buf ||| (EraR.maskTo (last % 64) &&& EraR.maskFrom (first % 64)) }
    else
      let t := EraR.loop (last / 64 - first / 64) { EraR.move s (first / 64) with buf := (EraR.move s (first / 64)).buf ||| EraR.maskFrom (first % 64) }
      { t.push with ei := t.ei + 1, buf := t.buf ||| EraR.maskTo (last % 64) } := by
  have h63 : ∀ x : Nat, x &&& 63 = x % 64 := fun x => Nat.and_two_pow_sub_one_eq_mod x 6
  unfold EraR.blocksTo EraR.move
  simp only [Nat.shiftRight_eq_div_pow, show (2 : Nat) ^ 6 = 64 from rfl, h63]

theorem blocksTo_ok {s : EraR.RSt} (h : s.OK) (first last : Nat) : (EraR.blocksTo s first last).OK := by
  rw [blocksTo_eq]
  have hm := EraR.move_spec h (first / 64)
  split
  · exact EraR.ok_buf hm.1 _
  · exact EraR.ok_push (EraR.loop_spec _ _ (EraR.ok_buf hm.1 _)).1 (Nat.lt_succ_self _)

theorem foldW_ok (rs : List (Nat × Nat)) : ∀ s : EraR.RSt, s.OK → (rs.foldl EraR.blocksW s).OK := by
  induction rs with
  | nil => intro s h; exact h
  | cons r rs ih => intro s h; exact ih _ (blocksTo_ok h _ _)

/-- the pushes so far do not matter to what comes -/
def after (P : List (Nat × Nat)) (t : EraR.RSt) : EraR.RSt := { t with pushes := P ++ t.pushes }

theorem loop_after (P : List (Nat × Nat)) : ∀ (k : Nat) (t : EraR.RSt), EraR.loop k (after P t) = after P (EraR.loop k t) := by
  intro k
  induction k with
  | zero => intro t; rfl
  | succ k ih =>
    intro t
    rw [EraR.loop, EraR.loop, ← ih]
    unfold after EraR.RSt.push
    simp only [List.append_assoc]

theorem blocksTo_after (P : List (Nat × Nat)) (t : EraR.RSt) (first last : Nat) : EraR.blocksTo (after P t) first last = after P (EraR.blocksTo t first last) := by
  have hm : ∀ i, EraR.move (after P t) i = after P (EraR.move t i) := by
    intro i
    unfold EraR.move
    show (if i > t.ei then _ else _) = _
    by_cases hi : i > t.ei
    · rw [if_pos hi, if_pos hi]
      unfold after EraR.RSt.push
      simp only [List.append_assoc]
    · rw [if_neg hi, if_neg hi]
  rw [blocksTo_eq, blocksTo_eq, hm]
  by_cases h : first / 64 = last / 64
  · rw [if_pos h, if_pos h]; rfl
  · rw [if_neg h, if_neg h]
    simp only
    have : (⟨(after P (EraR.move t (first / 64))).ei, (after P (EraR.move t (first / 64))).buf ||| EraR.maskFrom (first % 64),
        (after P (EraR.move t (first / 64))).pushes⟩ : EraR.RSt) =
        after P ⟨(EraR.move t (first / 64)).ei, (EraR.move t (first / 64)).buf ||| EraR.maskFrom (first % 64), (EraR.move t (first / 64)).pushes⟩ := rfl
    rw [this, loop_after]
    unfold after EraR.RSt.push
    simp only [List.append_assoc]

theorem blocksW_after (t : EraR.RSt) (r : Nat × Nat) : EraR.blocksW t r = after t.pushes (EraR.blocksW ⟨t.ei, t.buf, []⟩ r) := by
  unfold EraR.blocksW
  rw [← blocksTo_after]
  unfold after
  simp only [List.append_nil]

theorem pushList_part {epb nr n max : Nat} (he : 0 < epb) (qs : List (Nat × Nat)) : ∀ {s : ASt Nat} {ps : List (Nat × Nat)} {ab : AB Nat},
    Part epb nr ps ab s → s.bt.sm.Inv n max → At (·.1) ps (posOf epb ab) → (∀ q ∈ qs, q.1 < nr) → Sorted qs → (∀ q ∈ qs, ∀ p ∈ ps, p.1 < q.1) →
    Arr.APost (pushList qs ab s) (fun r => Part epb nr (ps ++ qs) r.1 r.2 ∧ At (·.1) (ps ++ qs) (posOf epb r.1) ∧
      ∃ new, r.1.blocks = ab.blocks ++ new ∧ Ext n max s r.2 new) := by
  induction qs with
  | nil => intro s ps ab h hi ha _ _ _; rw [List.append_nil]; exact ⟨h, ha, [], (List.append_nil _).symm, Ext.refl hi⟩
  | cons q qs ih =>
    intro s ps ab h hi ha hn hs hp
    have hs' := List.pairwise_cons.mp hs
    have hle : posOf epb ab ≤ q.1 := at_le ha (fun x hx => hp q (by simp) x hx)
    have := push_part he h hi q.2 (hn q (by simp)) hle
    rw [pushList]
    cases e : Arr.push q.1 q.2 ab s with
    | error err => rw [e] at this; cases err <;> exact this
    | ok r =>
      rw [e] at this
      obtain ⟨ab1, s1⟩ := r
      obtain ⟨p1, p2, new, pb, p3⟩ := this
      simp only at p1 p2 pb p3 ⊢
      have ha1 : At (·.1) (ps ++ [q]) (posOf epb ab1) := by
        have := at_push ha q hle
        unfold posOf
        rw [p2]
        exact this
      have := ih p1 p3.sm ha1 (fun x hx => hn x (by simp [hx])) hs'.2 (fun x hx p hp' => by
        rcases List.mem_append.mp hp' with hp' | hp'
        · exact hp x (by simp [hx]) p hp'
        · rw [List.mem_singleton.mp hp']; exact hs'.1 x hx)
      cases e2 : pushList qs ab1 s1 with
      | error err => rw [e2] at this; cases err <;> exact this
      | ok r2 =>
        rw [e2] at this
        obtain ⟨g1, g2, new2, gb, g3⟩ := this
        rw [List.append_assoc] at g1 g2
        exact ⟨g1, g2, new ++ new2, by rw [gb, pb, List.append_assoc], p3.trans g3⟩

theorem pushList_part_ok {epb nr n max : Nat} (he : 0 < epb) (qs : List (Nat × Nat)) : ∀ {s : ASt Nat} {ps : List (Nat × Nat)} {ab : AB Nat},
    Part epb nr ps ab s → s.bt.sm.Inv n max → At (·.1) ps (posOf epb ab) → ∀ {r : AB Nat × ASt Nat}, pushList qs ab s = .ok r →
    (∀ q ∈ qs, q.1 < nr) ∧ Sorted qs ∧ (∀ q ∈ qs, ∀ p ∈ ps, p.1 < q.1) := by
  induction qs with
  | nil => intro s ps ab h hi ha r _; exact ⟨by simp, List.Pairwise.nil, by simp⟩
  | cons q qs ih =>
    intro s ps ab h hi ha r hr
    rw [pushList] at hr
    cases e : Arr.push q.1 q.2 ab s with
    | error err => rw [e] at hr; cases hr
    | ok r1 =>
      rw [e] at hr
      obtain ⟨hq, hle⟩ := push_part_pos he h q.2 e
      have := push_part he h hi q.2 hq hle
      rw [e] at this
      obtain ⟨ab1, s1⟩ := r1
      obtain ⟨p1, p2, new, pb, p3⟩ := this
      simp only at p1 p2 pb p3 hr
      have ha1 : At (·.1) (ps ++ [q]) (posOf epb ab1) := by
        have := at_push ha q hle
        unfold posOf
        rw [p2]
        exact this
      obtain ⟨g1, g2, g3⟩ := ih p1 p3.sm ha1 hr
      refine ⟨fun x hx => ?_, List.pairwise_cons.mpr ⟨fun x hx => g3 x hx q (by simp), g2⟩, fun x hx p hp => ?_⟩
      · rcases List.mem_cons.mp hx with rfl | hx
        · exact hq
        · exact g1 x hx
      · rcases List.mem_cons.mp hx with rfl | hx
        · have := ha.1 p hp
          simp only at this
          unfold posOf at this
          omega
        · exact g3 x hx p (by simp [hp])

theorem pushAll_post {epb nr n max : Nat} (he : 0 < epb) {qs : List (Nat × Nat)} {s : ASt Nat} {ps : List (Nat × Nat)} {ab : AB Nat}
    (h : Part epb nr ps ab s) (hi : s.bt.sm.Inv n max) (ha : At (·.1) ps (posOf epb ab)) (hn : ∀ q ∈ qs, q.1 < nr) (hs : Sorted qs)
    (hp : ∀ q ∈ qs, ∀ p ∈ ps, p.1 < q.1) :
    RPost (pushAll qs (some ab) s) (fun r => Part epb nr (ps ++ qs) r.1 r.2 ∧ At (·.1) (ps ++ qs) (posOf epb r.1) ∧
      ∃ new, r.1.blocks = ab.blocks ++ new ∧ Ext n max s r.2 new) := by
  have := pushList_part he qs h hi ha hn hs hp
  unfold pushAll
  simp only
  cases e : pushList qs ab s with
  | error err => rw [e] at this; cases err <;> exact this
  | ok r => rw [e] at this; exact this

theorem pushAll_ok {epb nr n max : Nat} (he : 0 < epb) {qs : List (Nat × Nat)} {s : ASt Nat} {ps : List (Nat × Nat)} {ab : AB Nat}
    (h : Part epb nr ps ab s) (hi : s.bt.sm.Inv n max) (ha : At (·.1) ps (posOf epb ab)) {r : AB Nat × ASt Nat} (hr : pushAll qs (some ab) s = .ok r) :
    ((∀ q ∈ qs, q.1 < nr) ∧ Sorted qs ∧ (∀ q ∈ qs, ∀ p ∈ ps, p.1 < q.1)) ∧
    Part epb nr (ps ++ qs) r.1 r.2 ∧ At (·.1) (ps ++ qs) (posOf epb r.1) ∧ ∃ new, r.1.blocks = ab.blocks ++ new ∧ Ext n max s r.2 new := by
  have hq : (∀ q ∈ qs, q.1 < nr) ∧ Sorted qs ∧ (∀ q ∈ qs, ∀ p ∈ ps, p.1 < q.1) := by
    unfold pushAll at hr
    simp only at hr
    cases e : pushList qs ab s with
    | error err => rw [e] at hr; cases hr
    | ok r1 => exact pushList_part_ok he qs h hi ha e
  have := pushAll_post he h hi ha hq.1 hq.2.1 hq.2.2
  rw [hr] at this
  exact ⟨hq, this⟩

theorem complete_post {cfg : Cfg} {epb nr n max : Nat} (he : 0 < epb) (hL : 2 ≤ cfg.capL) (hI : 4 ≤ cfg.capI) (hn : n < 2 ^ 64)
    {dev : ASt Nat} {ps : List (Nat × Nat)} {ab : AB Nat} (hp : Part epb nr ps ab dev) (hi : dev.bt.sm.Inv n max) :
    RPost (complete cfg ab dev) (fun r => ∃ new B, Ext n max dev r.2 new ∧ InBlocks epb nr n (arrayOf ps) r.1 r.2 B ∧
      ∀ b, B.count b = (ab.blocks ++ new).count b) := by
  have := complete_part he hL hI hn hp hi
  unfold complete
  cases e : completeArray cfg.capL cfg.capI ab dev with
  | error err => rw [e] at this; cases err <;> exact this
  | ok r =>
    rw [e] at this
    obtain ⟨root, dev'⟩ := r
    obtain ⟨h, t, new, h1, h2⟩ := this
    refine ⟨_, _, h1, ⟨h, t, _, h2, rfl⟩, fun b => ?_⟩
    simp only [List.count_append]
    omega

theorem flatMap_vals (mem : Nat → Option (BT.Blk Nat)) (es : List (Nat × Nat)) :
    (es.map fun e => Bld.Item.val e.1 e.2).flatMap (Bld.Item.contents mem) = es := Arr.flatMap_val mem es

/-- the tree of writesets -/
theorem buildSets_post {cfg : Cfg} {n max : Nat} (hW : 2 ≤ cfg.capW) (hI : 4 ≤ cfg.capI) (hn : n < 2 ^ 64) {dev : ASt Nat} {sets : List (Nat × Nat)}
    (hs : Sorted sets) (hi : dev.bt.sm.Inv n max) :
    RPost (buildSets cfg sets dev) (fun r => ∃ (h : Nat) (t : Tree Nat h), Ext n max dev r.2 (t.blocks h) ∧ LW.Clean r.2.bt.mem n h t ∧
      t.blk h = r.1 ∧ t.contents h = sets) := by
  have h2 := Bld.build_correct (fun _ : Nat => ([] : List Nat)) (fun _ _ => true) (capL := cfg.capW) hW hI hn dev.bt hi
    (sets.map fun e => .val e.1 e.2)
    (by intro i hi; obtain ⟨e, -, rfl⟩ := List.mem_map.mp hi; trivial)
    (by rw [flatMap_vals]; exact hs)
  unfold buildSets
  cases e3 : Bld.build (Bld.leafIO (fun _ => []) (fun _ _ => true)) cfg.capW cfg.capI (sets.map fun e => .val e.1 e.2) dev.bt with
  | error err => rw [e3] at h2; exact h2
  | ok r =>
    rw [e3] at h2
    obtain ⟨root, bt⟩ := r
    obtain ⟨ht, tr, hr⟩ := h2
    simp only at hr ⊢
    rw [flatMap_vals] at hr
    have hne := SMC.rootFilled_noEmpty hW (by omega) ht tr hr.filled
    have hx : Ext n max dev { dev with bt } (tr.blocks ht) := by
      have hvals : ∀ i ∈ (sets.map fun e => Bld.Item.val e.1 e.2), ∃ k v, i = .val k v := by
        intro i hi
        obtain ⟨e, -, rfl⟩ := List.mem_map.mp hi
        exact ⟨_, _, rfl⟩
      refine ⟨hr.sm, hr.rc, fun b hb => ⟨hr.mem b hb, rfl⟩, fun b hb => ?_, fun hc => SMD.buildVals_kept (SMD.cursor_kept n max) hvals hc _ e3,
        LW.blocks_nodup ht tr true 0 none hr.stored hr.ordered hne⟩
      rcases Nat.eq_zero_or_pos (dev.bt.sm.abs b) with h0 | h0
      · exact h0
      · have hf := hr.fresh b hb h0
        obtain ⟨it, hit, hbi⟩ := List.mem_flatMap.mp hf
        obtain ⟨e, -, rfl⟩ := List.mem_map.mp hit
        exact absurd hbi (by simp [Bld.Item.blocks])
    refine ⟨ht, tr, hx, ⟨hr.stored, hr.ordered, hne, fun b hb => ?_⟩, hr.blk, hr.contents⟩
    have := List.count_pos_iff.mpr hb
    have h3 := hx.rc b
    exact SMC.lt_of_pos hx.sm (by omega)

theorem RPost.of {α : Type} {r : Except RErr α} {Q : α → Prop} {a : α} (h : RPost r Q) (e : r = .ok a) : Q a := by rw [e] at h; exact h

theorem Part.grown {epb nr n max : Nat} {ps : List (Nat × Nat)} {ab : AB Nat} {s s' : ASt Nat} {a : List Nat}
    (h : Part epb nr ps ab s) (g : Grown n max s s' a) : Part epb nr ps ab s' :=
  ⟨h.hnr, h.hepb, h.nrB, h.le, h.cap, h.fits, h.later, h.vals,
    fun i hi => by rw [g.read (h.live _ (List.getElem_mem hi))]; exact h.stored i hi, fun b hb => g.live (h.live b hb)⟩

theorem grown_trans {n max : Nat} {s s' s'' : ASt Nat} {a b : List Nat} (h : Grown n max s s' a) (g : Grown n max s' s'' b) :
    Grown n max s s'' (a ++ b) := by
  refine ⟨g.sm, fun x => ?_, fun x hx => ?_, fun x hx => ?_⟩
  · rw [g.rc, h.rc, List.count_append]; omega
  · have := h.rc x
    rw [(g.keep x (by omega)).1, (g.keep x (by omega)).2]
    exact h.keep x hx
  · rcases List.mem_append.mp hx with hx | hx
    · exact h.fresh x hx
    · have := g.fresh x hx
      have := h.rc x
      omega

/-! ## Invariant -/

/-- a restored writeset: number of bits, marked ranges, root and blocks of its bitset -/
structure WS where
  bits : Nat
  rs : List (Nat × Nat)
  root : Nat
  blks : List Nat

/-- the entry of the tree of writesets -/
def WS.entry (p : Nat × WS) : Nat × Nat := (p.1, wsWord p.2.bits p.2.root)
/-- what the document says about it -/
def WS.said (p : Nat × WS) : Nat × Nat × List (Nat × Nat) := (p.1, p.2.bits, p.2.rs)

/-- replacing an entry loses the blocks of the old one -/
theorem insertId_blks (k : Nat) (w : WS) : ∀ (S : List (Nat × WS)), ∃ old : List Nat,
    (∀ b, ((Rst.insertId k w S).flatMap fun p => p.2.blks).count b + old.count b = (S.flatMap fun p => p.2.blks).count b + w.blks.count b) ∧
    ((∀ p ∈ S, p.1 ≠ k) → old = []) := by
  intro S
  induction S with
  | nil => exact ⟨[], fun b => by simp [Rst.insertId], fun _ => rfl⟩
  | cons p S ih =>
    obtain ⟨old, h1, h2⟩ := ih
    rw [Rst.insertId]
    by_cases c1 : k < p.1
    · rw [if_pos c1]
      exact ⟨[], fun b => by simp only [List.flatMap_cons, List.count_append, List.count_nil]; omega, fun _ => rfl⟩
    · rw [if_neg c1]
      by_cases c2 : k = p.1
      · rw [if_pos c2]
        refine ⟨p.2.blks, fun b => ?_, fun h => absurd c2.symm (h p (by simp))⟩
        simp only [List.flatMap_cons, List.count_append]
        omega
      · rw [if_neg c2]
        refine ⟨old, fun b => ?_, fun h => h2 fun q hq => h q (by simp [hq])⟩
        have := h1 b
        simp only [List.flatMap_cons, List.count_append]
        omega

/-- the restored writesets: in the order of their eras, those the document says, each in its blocks -/
structure Sets (cfg : Cfg) (n : Nat) (sets : List (Nat × Nat)) (dsets : List (Nat × Nat × List (Nat × Nat))) (dev : ASt Nat) (S : List (Nat × WS)) : Prop where
  entries : sets = S.map WS.entry
  said : S.map WS.said = byEra dsets
  sorted : S.Pairwise fun a b => a.1 < b.1
  stored : ∀ p ∈ S, InBlocks cfg.epb8 (divUp p.2.bits 64) n (arrayOf (pushesW p.2.rs)) p.2.root dev p.2.blks
  fits : ∀ p ∈ S, ∀ q ∈ pushesW p.2.rs, q.1 < divUp p.2.bits 64

theorem Sets.grown {cfg : Cfg} {n max : Nat} {sets : List (Nat × Nat)} {dsets : List (Nat × Nat × List (Nat × Nat))} {dev dev' : ASt Nat} {S : List (Nat × WS)}
    {new : List Nat} (h : Sets cfg n sets dsets dev S) (g : Grown n max dev dev' new) : Sets cfg n sets dsets dev' S :=
  ⟨h.entries, h.said, h.sorted, fun p hp => (h.stored p hp).grown g, h.fits⟩

/-- the writeset under construction -/
def Cur (cfg : Cfg) (opn : Option (Nat × Nat × List (Nat × Nat))) (s : RSt) : Prop :=
  match opn with
  | none => s.wsB = none ∧ s.cur = none
  | some w => ∃ ab, s.wsB = some ab ∧ s.cur = some (w.1, w.2.1) ∧
      Part cfg.epb8 (divUp w.2.1 64) (w.2.2.foldl EraR.blocksW ⟨0, 0, []⟩).pushes ab s.dev ∧
      At (·.1) (w.2.2.foldl EraR.blocksW ⟨0, 0, []⟩).pushes (posOf cfg.epb8 ab) ∧
      s.ei = (w.2.2.foldl EraR.blocksW ⟨0, 0, []⟩).ei ∧ s.buf = (w.2.2.foldl EraR.blocksW ⟨0, 0, []⟩).buf ∧
      ∀ q ∈ (w.2.2.foldl EraR.blocksW ⟨0, 0, []⟩).pushes, q.1 < divUp w.2.1 64

/-- the era array under construction -/
def Eras (cfg : Cfg) (nr : Nat) (eras : List (Nat × Nat)) (s : RSt) : Prop :=
  ∃ ab, s.eraB = some ab ∧ Part cfg.epb4 nr eras ab s.dev ∧ At (·.1) eras (posOf cfg.epb4 ab) ∧ Sorted eras ∧ ∀ e ∈ eras, e.1 < nr

/-- the restorer inside of the superblock element, after the events that say `d` -/
structure Open (cfg : Cfg) (n max : Nat) (sb : ESb) (d : Doc) (s : RSt) : Prop where
  hsb : s.sb = some sb
  out : s.out = none
  sect : match d.opn with | none => s.sect = .superblock ∨ s.sect = .eraArray | some _ => s.sect = .writeset
  cur : SMD.Cursor n max s.dev.bt
  ws : Cur cfg d.opn s
  eras : Eras cfg sb.nrBlocks d.eras s
  sets : ∃ S dead, Sets cfg n s.sets d.sets s.dev S ∧
    (∀ b, s.dev.bt.sm.abs b = (0 :: ((S.flatMap fun p => p.2.blks) ++ (dead ++ (written s.wsB ++ written s.eraB)))).count b) ∧
    ((d.sets.map (·.1)).Nodup → dead = [])
  one : ∀ b, s.dev.bt.sm.abs b ≤ 1

theorem Open.sm {cfg : Cfg} {n max : Nat} {sb : ESb} {d : Doc} {s : RSt} (h : Open cfg n max sb d s) : s.dev.bt.sm.Inv n max := h.cur.1

theorem byEra_append (l : List (Nat × Nat × List (Nat × Nat))) (w : Nat × Nat × List (Nat × Nat)) : byEra (l ++ [w]) = Rst.insertId w.1 w.2 (byEra l) := by
  unfold byEra
  rw [List.foldl_append]
  rfl

theorem byEra_keys (l : List (Nat × Nat × List (Nat × Nat))) : (byEra l).Pairwise (fun a b => a.1 < b.1) ∧ ∀ e ∈ byEra l, e ∈ l := by
  have : ∀ (l m : List (Nat × Nat × List (Nat × Nat))), m.Pairwise (fun a b => a.1 < b.1) →
      (l.foldl (fun m w => Rst.insertId w.1 w.2 m) m).Pairwise (fun a b => a.1 < b.1) ∧
      ∀ e ∈ l.foldl (fun m w => Rst.insertId w.1 w.2 m) m, e ∈ m ∨ e ∈ l := by
    intro l
    induction l with
    | nil => intro m hm; exact ⟨hm, fun e he => Or.inl he⟩
    | cons w l ih =>
      intro m hm
      obtain ⟨h1, h2⟩ := LW.insertId_spec w.1 w.2 m hm
      obtain ⟨g1, g2⟩ := ih _ h1
      refine ⟨g1, fun e he => ?_⟩
      rcases g2 e he with h | h
      · rcases (h2 e).mp h with rfl | h
        · exact Or.inr (by simp)
        · exact Or.inl h.1
      · exact Or.inr (by simp [h])
  obtain ⟨h1, h2⟩ := this l [] List.Pairwise.nil
  exact ⟨h1, fun e he => (h2 e he).resolve_left (by simp)⟩

theorem Cur.ext {cfg : Cfg} {n max : Nat} {opn : Option (Nat × Nat × List (Nat × Nat))} {s s' : RSt} {new : List Nat} (h : Cur cfg opn s)
    (g : Ext n max s.dev s'.dev new) (e1 : s'.wsB = s.wsB) (e2 : s'.cur = s.cur) (e3 : s'.ei = s.ei) (e4 : s'.buf = s.buf) : Cur cfg opn s' := by
  cases opn with
  | none => exact ⟨e1.trans h.1, e2.trans h.2⟩
  | some w =>
    obtain ⟨ab, h1, h2, h3, h4, h5, h6⟩ := h
    exact ⟨ab, e1.trans h1, e2.trans h2, h3.ext g, h4, e3.trans h5, e4.trans h6.1, h6.2⟩

theorem Eras.ext {cfg : Cfg} {n max nr : Nat} {eras : List (Nat × Nat)} {s s' : RSt} {new : List Nat} (h : Eras cfg nr eras s)
    (g : Ext n max s.dev s'.dev new) (e1 : s'.eraB = s.eraB) : Eras cfg nr eras s' := by
  obtain ⟨ab, h1, h2, h3⟩ := h
  exact ⟨ab, e1.trans h1, h2.ext g, h3⟩

/-- hypotheses on the configuration -/
structure CfgOk (cfg : Cfg) (n : Nat) : Prop where
  e8 : 0 < cfg.epb8
  e4 : 0 < cfg.epb4
  L : 2 ≤ cfg.capL
  I : 4 ≤ cfg.capI
  W : 2 ≤ cfg.capW
  n64 : n < 2 ^ 64

/-- `era` -/
theorem era_ok {cfg : Cfg} {n max : Nat} (hc : CfgOk cfg n) {sb : ESb} {d : Doc} {s : RSt} (h : Open cfg n max sb d s) {b e : Nat} {r : RSt}
    (hr : era b e s = .ok r) : (b < sb.nrBlocks ∧ ∀ x ∈ d.eras, x.1 < b) ∧ Open cfg n max sb (d.add (.era b e)) r := by
  obtain ⟨ab, h1, h2, h3, h4, h5⟩ := h.eras
  unfold era at hr
  rw [h1] at hr
  cases e1 : pushAll [(b, e)] (some ab) s.dev with
  | error err => rw [e1] at hr; cases hr
  | ok q =>
    obtain ⟨ab1, dev1⟩ := q
    rw [e1] at hr
    cases hr
    obtain ⟨⟨g1, g2, g3⟩, p1, p2, new, pb, p3⟩ := pushAll_ok hc.e4 h2 h.sm h3 e1
    have gb := g1 (b, e) (by simp)
    have gl : ∀ x ∈ d.eras, x.1 < b := fun x hx => g3 (b, e) (by simp) x hx
    refine ⟨⟨gb, gl⟩, ?_⟩
    obtain ⟨S, dead, s1, s2, s3⟩ := h.sets
    refine ⟨h.hsb, h.out, h.sect, p3.cur h.cur, h.ws.ext p3 rfl rfl rfl rfl, ⟨ab1, rfl, p1, p2, CacheM.pairwise_snoc h4 gl, ?_⟩, ⟨S, dead, s1.grown p3.grown, ?_, s3⟩, p3.one h.one⟩
    · intro x hx
      rcases List.mem_append.mp hx with hx | hx
      · exact h5 x hx
      · rw [List.mem_singleton.mp hx]; exact gb
    · intro x
      show dev1.bt.sm.abs x = _
      rw [p3.rc, s2, h1]
      show _ = (0 :: (_ ++ (_ ++ (_ ++ ab1.blocks)))).count x
      rw [show ab1.blocks = ab.blocks ++ new from pb]
      simp only [written, List.count_cons, List.count_append]
      omega

/-- `writeset_b` -/
theorem writesetB_ok {cfg : Cfg} {n max : Nat} {sb : ESb} {d : Doc} {s : RSt} (h : Open cfg n max sb d s) {e bits : Nat} {r : RSt}
    (hr : writesetB cfg e bits s = .ok r) : Open cfg n max sb (d.add (.wsB e bits)) r := by
  unfold writesetB at hr
  by_cases hs : s.sect = .superblock
  · rw [if_neg (by simpa using hs)] at hr
    cases hr
    have hop : d.opn = none := by
      have := h.sect
      cases e : d.opn with
      | none => rfl
      | some w => rw [e, hs] at this; cases this
    have hw := h.ws
    rw [hop] at hw
    obtain ⟨S, dead, s1, s2, s3⟩ := h.sets
    refine ⟨h.hsb, h.out, rfl, h.cur, ⟨_, rfl, rfl, part_new, ⟨by simp, Or.inl (by simp [posOf, AB.new])⟩, rfl, rfl, by simp⟩, h.eras, ⟨S, dead, s1, fun b => ?_, s3⟩, h.one⟩
    rw [s2, hw.1]
    rfl
  · rw [if_pos hs] at hr; cases hr

/-- `writeset_blocks` -/
theorem blocks_ok {cfg : Cfg} {n max : Nat} (hc : CfgOk cfg n) {sb : ESb} {d : Doc} {s : RSt} (h : Open cfg n max sb d s) {b len : Nat} {r : RSt}
    (hr : writesetBlocks b len s = .ok r) : Open cfg n max sb (d.add (.blocks b len)) r := by
  unfold writesetBlocks at hr
  have hw := h.ws
  have hsect := h.sect
  cases eo : d.opn with
  | none =>
    rw [eo] at hw
    rw [hw.1] at hr
    cases hr
  | some w =>
    rw [eo] at hw hsect
    obtain ⟨ab, h1, h2, h3, h4, h5, h6, h7⟩ := hw
    rw [h1] at hr
    simp only at hr
    cases e1 : pushAll (EraR.blocksW ⟨s.ei, s.buf, []⟩ (b, len)).pushes (some ab) s.dev with
    | error err => rw [e1] at hr; cases hr
    | ok q =>
      obtain ⟨ab1, dev1⟩ := q
      rw [e1] at hr
      cases hr
      obtain ⟨⟨g1, -, -⟩, p1, p2, new, pb, p3⟩ := pushAll_ok hc.e8 h3 h.sm h4 e1
      have hf : (w.2.2 ++ [(b, len)]).foldl EraR.blocksW ⟨0, 0, []⟩ = after (w.2.2.foldl EraR.blocksW ⟨0, 0, []⟩).pushes (EraR.blocksW ⟨s.ei, s.buf, []⟩ (b, len)) := by
        rw [List.foldl_append, List.foldl_cons, List.foldl_nil, blocksW_after, ← h5, ← h6]
      obtain ⟨S, dead, s1, s2, s3⟩ := h.sets
      have hadd : d.add (.blocks b len) = { d with opn := some (w.1, w.2.1, w.2.2 ++ [(b, len)]) } := by
        show ({ d with opn := d.opn.map _ } : Doc) = _
        rw [eo]; rfl
      rw [hadd]
      refine ⟨h.hsb, h.out, hsect, p3.cur h.cur, ⟨ab1, rfl, h2, ?_, ?_, ?_, ?_, ?_⟩, h.eras.ext p3 rfl, ⟨S, dead, s1.grown p3.grown, ?_, s3⟩, p3.one h.one⟩
      · simp only; rw [hf]; exact p1
      · simp only; rw [hf]; exact p2
      · simp only; rw [hf]; rfl
      · simp only; rw [hf]; rfl
      · simp only
        rw [hf]
        intro q hq
        rcases List.mem_append.mp hq with hq | hq
        · exact h7 q hq
        · exact g1 q hq
      · intro x
        show dev1.bt.sm.abs x = _
        rw [p3.rc, s2, h1]
        show _ = (0 :: (_ ++ (_ ++ (ab1.blocks ++ _)))).count x
        rw [show ab1.blocks = ab.blocks ++ new from pb]
        simp only [written, List.count_cons, List.count_append]
        omega

/-- `writeset_e` -/
theorem writesetE_ok {cfg : Cfg} {n max : Nat} (hc : CfgOk cfg n) {sb : ESb} {d : Doc} {s : RSt} (h : Open cfg n max sb d s) {r : RSt}
    (hr : writesetE cfg s = .ok r) : Open cfg n max sb (d.add .wsE) r := by
  unfold writesetE at hr
  by_cases hs : s.sect = .writeset
  · rw [if_neg (by simpa using hs)] at hr
    have hw := h.ws
    have hsect := h.sect
    cases eo : d.opn with
    | none => rw [eo, hs] at hsect; simp at hsect
    | some w =>
      rw [eo] at hw
      obtain ⟨ab, h1, h2, h3, h4, h5, h6, h7⟩ := hw
      rw [h1, h2] at hr
      simp only at hr
      cases e1 : pushAll [(s.ei, s.buf)] (some ab) s.dev with
      | error err => rw [e1] at hr; cases hr
      | ok q =>
        obtain ⟨ab1, dev1⟩ := q
        rw [e1] at hr
        simp only at hr
        obtain ⟨⟨g1, -, -⟩, p1, p2, new, pb, p3⟩ := pushAll_ok hc.e8 h3 h.sm h4 e1
        have hcm := complete_post (cfg := cfg) hc.e8 hc.L hc.I hc.n64 p1 p3.sm
        cases e2 : complete cfg ab1 dev1 with
        | error err => rw [e2] at hr; cases hr
        | ok q2 =>
          obtain ⟨root, dev2⟩ := q2
          rw [e2] at hr hcm
          cases hr
          obtain ⟨new2, B, x2, st, cnt⟩ := hcm
          simp only at x2 st cnt p1 p2 pb p3
          have hx := p3.trans x2
          obtain ⟨S, dead, s1, s2, s3⟩ := h.sets
          have hadd : d.add .wsE = { d with sets := d.sets ++ [w], opn := none } := by
            show (match d.opn with | some w => _ | none => _) = _
            rw [eo]
          have hpw : pushesW w.2.2 = (w.2.2.foldl EraR.blocksW ⟨0, 0, []⟩).pushes ++ [(s.ei, s.buf)] := by
            rw [h5, h6]; rfl
          have hfit : ∀ q ∈ pushesW w.2.2, q.1 < divUp w.2.1 64 := by
            intro q hq
            rw [hpw] at hq
            rcases List.mem_append.mp hq with hq | hq
            · exact h7 q hq
            · exact g1 q hq
          rw [hadd]
          obtain ⟨i1, i2⟩ := LW.insertId_spec w.1 (⟨w.2.1, w.2.2, root, B⟩ : WS) S s1.sorted
          obtain ⟨old, o1, o2⟩ := insertId_blks w.1 ⟨w.2.1, w.2.2, root, B⟩ S
          refine ⟨h.hsb, h.out, Or.inl rfl, hx.cur h.cur, ⟨rfl, rfl⟩, h.eras.ext hx rfl, ?_, hx.one h.one⟩
          refine ⟨Rst.insertId w.1 ⟨w.2.1, w.2.2, root, B⟩ S, old ++ dead, ⟨?_, ?_, i1, ?_, ?_⟩, fun x => ?_, fun hnd => ?_⟩
          · show Rst.insertId w.1 (wsWord w.2.1 root) s.sets = _
            rw [s1.entries]
            exact Rst.insertId_map (fun v : WS => wsWord v.bits v.root) w.1 ⟨w.2.1, w.2.2, root, B⟩ S
          · simp only
            rw [byEra_append, ← s1.said]
            exact (Rst.insertId_map (fun v : WS => (v.bits, v.rs)) w.1 ⟨w.2.1, w.2.2, root, B⟩ S).symm
          · intro p hp
            rcases (i2 p).mp hp with rfl | ⟨hp, -⟩
            · simp only
              rw [hpw]
              exact st
            · exact (s1.stored p hp).ext hx
          · intro p hp
            rcases (i2 p).mp hp with rfl | ⟨hp, -⟩
            · exact hfit
            · exact s1.fits p hp
          · show dev2.bt.sm.abs x = _
            have c1 := cnt x
            have c2 := o1 x
            rw [hx.rc, s2, h1]
            show _ = (0 :: (_ ++ ((old ++ dead) ++ (written none ++ written s.eraB)))).count x
            rw [pb] at c1
            simp only [written, List.count_cons, List.count_append, List.count_nil] at c1 c2 ⊢
            omega
          · simp only [List.map_append, List.map_cons, List.map_nil] at hnd
            have hnd' := List.nodup_append.mp hnd
            rw [s3 hnd'.1, o2, List.append_nil]
            intro p hp
            have hmem : WS.said p ∈ d.sets := (byEra_keys d.sets).2 _ (by rw [← s1.said]; exact List.mem_map_of_mem hp)
            exact fun e => hnd'.2.2 p.1 (List.mem_map.mpr ⟨_, hmem, rfl⟩) w.1 (by simp) e
  · rw [if_pos hs] at hr; cases hr

/-! ## Finishing -/

/-- what `finalize` wrote, on the device `fin` after the space map: the tree `t` of writesets, their bitsets, the era array in the blocks `Be`.
With the superblock, `dead` (writesets replaced by later ones of the same era) and `left` (an unfinished writeset) these were all blocks in use, with
one reference each, on the device `dev` from which the space map was written. -/
structure Wrote (cfg : Cfg) (n max : Nat) (sb : ESb) (d : Doc) (smRoot : Bytes) (tree eras : Nat) (sm : SmImage) (fin : ASt Nat)
    (S : List (Nat × WS)) (h : Nat) (t : Tree Nat h) (Be dead left : List Nat) (dev mid : ASt Nat) : Prop where
  sets : Sets cfg n (S.map WS.entry) d.sets fin S
  clean : LW.Clean fin.bt.mem n h t
  blk : t.blk h = tree
  contents : t.contents h = S.map WS.entry
  live : ∀ b ∈ t.blocks h, 0 < fin.bt.sm.abs b
  eras : InBlocks cfg.epb4 sb.nrBlocks n (arrayOf d.eras) eras fin Be
  cur : SMD.Cursor n max dev.bt
  rc : ∀ b, dev.bt.sm.abs b = (0 :: ((t.blocks h ++ ((S.flatMap fun p => p.2.blks) ++ Be)) ++ (dead ++ left))).count b
  one : ∀ b, dev.bt.sm.abs b ≤ 1
  dead : (d.sets.map (·.1)).Nodup → dead = []
  left : d.opn = none → left = [] ∧ fin = mid
  written : cfg.writeSm dev = .ok (smRoot, sm, mid)

theorem Wrote.grown {cfg : Cfg} {n max : Nat} {sb : ESb} {d : Doc} {smRoot : Bytes} {tree eras : Nat} {sm : SmImage} {fin fin' : ASt Nat}
    {S : List (Nat × WS)} {h : Nat} {t : Tree Nat h} {Be dead left : List Nat} {dev mid : ASt Nat} {new : List Nat}
    (w : Wrote cfg n max sb d smRoot tree eras sm fin S h t Be dead left dev mid) (g : Grown n max fin fin' new) {d' : Doc} (h1 : d'.sets = d.sets)
    (h2 : d'.eras = d.eras) (h3 : d'.opn ≠ none) : Wrote cfg n max sb d' smRoot tree eras sm fin' S h t Be dead left dev mid :=
  { sets := by rw [h1]; exact w.sets.grown g
    clean := ⟨Arr.tree_stored_keep h t true (fun b hb => (g.keep b (w.live b hb)).1) w.clean.stored, w.clean.ordered, w.clean.noEmpty, w.clean.bound⟩
    blk := w.blk
    contents := w.contents
    live := fun b hb => g.live (w.live b hb)
    eras := by rw [h2]; exact w.eras.grown g
    cur := w.cur
    rc := w.rc
    one := w.one
    dead := by rw [h1]; exact w.dead
    left := fun h => absurd h h3
    written := w.written }

/-- the restorer after the end of the superblock element -/
structure Done (cfg : Cfg) (n max : Nat) (sb : ESb) (d : Doc) (s : RSt) : Prop where
  sect : s.sect = .finalized
  hsb : s.sb = none
  eraB : s.eraB = none
  inv : s.dev.bt.sm.Inv n max
  rest : s.wsB = none ∨ ∃ ab nr ps, s.wsB = some ab ∧ Part cfg.epb8 nr ps ab s.dev ∧ At (·.1) ps (posOf cfg.epb8 ab)
  same : d.opn = none → s.wsB = none
  order : Sorted d.eras ∧ ∀ e ∈ d.eras, e.1 < sb.nrBlocks
  out : ∃ smRoot tree eras S h t Be dead left dev mid, s.out = some (newSb sb smRoot tree eras) ∧
    Wrote cfg n max sb d smRoot tree eras s.sm s.dev S h t Be dead left dev mid

/-- assumption on the space map writer (`smWriter_sm` proves it of the model of `build_metadata_sm`): it takes only free blocks, or fails for lack of space -/
def SmOk (n max : Nat) (cfg : Cfg) : Prop :=
  ∀ s : ASt Nat, SMD.Cursor n max s.bt → RPost (cfg.writeSm s) fun r => ∃ new, Grown n max s r.2.2 new

theorem smWriter_sm {epb n : Nat} (hz : SmSize epb n) (max : Nat) {cfg : Cfg} (hw : cfg.writeSm = smWriter epb) : SmOk n max cfg := by
  intro dev hc
  rw [hw]
  refine (smWriter_post hz hc).mono ?_
  rintro r ⟨k, root, ies, S, ho, to, hM, -, -, hr⟩
  rw [hr]
  exact ⟨_, smOver_grown hM⟩

theorem entries_sorted {S : List (Nat × WS)} (h : S.Pairwise fun a b => a.1 < b.1) : Sorted (S.map WS.entry) := by
  unfold Sorted
  rw [List.pairwise_map]
  exact h

/-- closing the superblock element: it succeeds, or fails for lack of space -/
theorem finalize_post {cfg : Cfg} {n max : Nat} (hc : CfgOk cfg n) (hsm : SmOk n max cfg) {sb : ESb} {d : Doc} {s : RSt} (h : Open cfg n max sb d s) :
    RPost (finalize cfg s) (Done cfg n max sb d) := by
  obtain ⟨S, dead, s1, s2, s3⟩ := h.sets
  obtain ⟨ab, q1, q2, q3, q4⟩ := h.eras
  unfold finalize
  simp only [h.hsb]
  have hb := buildSets_post (cfg := cfg) hc.W hc.I hc.n64 (sets := s.sets) (by rw [s1.entries]; exact entries_sorted s1.sorted) h.sm
  cases e1 : buildSets cfg s.sets s.dev with
  | error err => rw [e1] at hb; exact hb.err
  | ok r1 =>
    rw [e1] at hb
    obtain ⟨tree, dev1⟩ := r1
    obtain ⟨ht, t, x1, cl, bk, ct⟩ := hb
    simp only at x1 cl bk ct ⊢
    rw [q1]
    simp only
    have hcm := complete_post (cfg := cfg) hc.e4 hc.L hc.I hc.n64 (q2.ext x1) x1.sm
    cases e2 : complete cfg ab dev1 with
    | error err => rw [e2] at hcm; exact hcm.err
    | ok r2 =>
      rw [e2] at hcm
      obtain ⟨eras, dev2⟩ := r2
      obtain ⟨new2, Be, x2, st, cnt⟩ := hcm
      simp only at x2 st cnt ⊢
      have hcur := x2.cur (x1.cur h.cur)
      have hw := hsm dev2 hcur
      cases e3 : cfg.writeSm dev2 with
      | error err => rw [e3] at hw; exact hw.err
      | ok r3 =>
        rw [e3] at hw
        obtain ⟨smr, img, dev3⟩ := r3
        obtain ⟨new3, x3⟩ := hw
        simp only at x3 ⊢
        have g : Grown n max s.dev dev3 ((t.blocks ht ++ new2) ++ new3) := grown_trans (x1.trans x2).grown x3
        have hlive : ∀ b ∈ t.blocks ht, 0 < dev1.bt.sm.abs b := by
          intro b hb
          have := List.count_pos_iff.mpr hb
          rw [x1.rc]
          omega
        have hstored := Arr.tree_stored_keep ht t true (fun b hb => ((grown_trans x2.grown x3).keep b (hlive b hb)).1) cl.stored
        refine ⟨rfl, rfl, rfl, x3.sm, ?_, ?_, q4, smr, tree, eras, S, ht, t, Be, dead, written s.wsB, dev2, dev3, rfl, ?_⟩
        · have hw := h.ws
          cases eo : d.opn with
          | none => rw [eo] at hw; exact Or.inl hw.1
          | some w =>
            rw [eo] at hw
            obtain ⟨ab, h1, -, h3, h4, -⟩ := hw
            exact Or.inr ⟨ab, _, _, h1, Part.grown h3 g, h4⟩
        · intro eo
          have hw := h.ws
          rw [eo] at hw
          exact hw.1
        · exact
            { sets := by have := s1.grown g; rw [s1.entries] at this; exact this
              clean := ⟨hstored, cl.ordered, cl.noEmpty, cl.bound⟩
              blk := bk
              contents := by rw [ct, s1.entries]
              live := fun b hb => (grown_trans x2.grown x3).live (hlive b hb)
              eras := st.grown x3
              cur := hcur
              rc := fun b => by
                have c1 := cnt b
                rw [x2.rc, x1.rc, s2, q1]
                simp only [CacheM.written, List.count_cons, List.count_append] at c1 ⊢
                omega
              one := x2.one (x1.one h.one)
              dead := s3
              left := fun eo => by
                have hw := h.ws
                rw [eo] at hw
                rw [hw.1]
                exact ⟨rfl, rfl⟩
              written := e3 }

/-- `superblock_b` on a new device: the superblock's place must be the first free block -/
theorem superblockB_post {cfg : Cfg} {n max : Nat} {dev : ASt Nat} (hdev : New n max dev) (sb : ESb) :
    superblockB cfg sb (RSt.new dev) = .error .occupied ∨
    RPost (superblockB cfg sb (RSt.new dev)) (fun r => Open cfg n max sb (Doc.empty.add (.sbB sb)) r ∧ r.sect = .superblock) := by
  have hcu := hdev.cur
  have hzero := hdev.zero
  unfold superblockB
  rw [if_neg (by simp [RSt.new])]
  have ha := CacheM.alloc_ext hcu.1
  show (match Bld.alloc dev.bt with | .error e => _ | .ok (b, bt) => _) = _ ∨ RPost (match Bld.alloc dev.bt with | .error e => _ | .ok (b, bt) => _) _
  cases e : Bld.alloc dev.bt with
  | error err => rw [e] at ha; exact Or.inr ha
  | ok r =>
    rw [e] at ha
    obtain ⟨b, bt⟩ := r
    have hx := ha
    simp only at hx ⊢
    by_cases hb : b = 0
    · right
      rw [if_neg (by simpa using hb)]
      refine ⟨⟨rfl, rfl, Or.inl rfl, hx.cur hcu, ⟨rfl, rfl⟩, ⟨_, rfl, part_new, ⟨by simp [Doc.add, Doc.empty], Or.inl (by simp [posOf, AB.new])⟩, ?_⟩, ⟨[], [], ⟨rfl, rfl, List.Pairwise.nil, by simp, by simp⟩, fun x => ?_, fun _ => rfl⟩, ?_⟩, rfl⟩
      · exact ⟨List.Pairwise.nil, by simp [Doc.add, Doc.empty]⟩
      · show bt.sm.abs x = _
        have := hx.rc x
        simp only at this
        rw [this, hzero x, hb]
        simp [begun, RSt.new, CacheM.written, AB.new]
      · exact hx.one (fun b => by rw [hzero b]; omega)
    · left
      rw [if_pos hb]

/-- the stages of a restore -/
inductive Phase (cfg : Cfg) (n max : Nat) (d : Doc) (s : RSt) : Prop where
  | start (dev : ASt Nat) (h : New n max dev) (hs : s = RSt.new dev) (hd : d = .empty)
  | open (sb : ESb) (h : Open cfg n max sb d s) (hb : d.sbs = [sb])
  | done (sb : ESb) (h : Done cfg n max sb d s) (hb : d.sbs = [sb])

theorem Open.sect' {cfg : Cfg} {n max : Nat} {sb : ESb} {d : Doc} {s : RSt} (h : Open cfg n max sb d s) (hs : s.sect = .superblock ∨ s.sect = .eraArray)
    {x : Section} (hx : x = .superblock ∨ x = .eraArray) : Open cfg n max sb d { s with sect := x } := by
  have hop : d.opn = none := by
    have := h.sect
    cases e : d.opn with
    | none => rfl
    | some w => rw [e] at this; rcases hs with hs | hs <;> rw [hs] at this <;> cases this
  exact ⟨h.hsb, h.out, by rw [hop]; exact hx, h.cur, by
    have := h.ws; rw [hop] at this ⊢; exact this, h.eras, h.sets, h.one⟩

/-- one accepted call -/
theorem step_ok {cfg : Cfg} {n max : Nat} (hc : CfgOk cfg n) (hsm : SmOk n max cfg) {d : Doc} {s : RSt} (h : Phase cfg n max d s) {e : EEv} {r : RSt}
    (hr : step cfg s e = .ok r) : Phase cfg n max (d.add e) r := by
  cases h with
  | start dev hdev hs hd =>
    subst hs hd
    cases e with
    | sbB sb =>
      rcases superblockB_post (cfg := cfg) hdev sb with ho | hp
      · rw [show step cfg (RSt.new dev) (.sbB sb) = _ from ho] at hr; cases hr
      · exact .open sb (RPost.of hp hr).1 rfl
    | sbE => cases hr
    | wsB e k => cases hr
    | wsE => cases hr
    | blocks b len => cases hr
    | eraB => cases hr
    | eraE => cases hr
    | era b e => cases hr
    | eof => cases hr
  | «open» sb h hb =>
    have hsect : s.sect ≠ .none ∧ s.sect ≠ .finalized := by
      have := h.sect
      cases eo : d.opn with
      | none => rw [eo] at this; rcases this with e | e <;> rw [e] <;> exact ⟨by decide, by decide⟩
      | some w => rw [eo] at this; simp only at this; rw [this]; exact ⟨by decide, by decide⟩
    cases e with
    | sbB sb' =>
      have hr : superblockB cfg sb' s = .ok r := hr
      unfold superblockB at hr
      rw [if_pos hsect.1] at hr
      cases hr
    | sbE => exact .done sb (RPost.of (finalize_post hc hsm h) hr) hb
    | wsB e k => exact .open sb (writesetB_ok h hr) hb
    | wsE =>
      refine .open sb (writesetE_ok hc h hr) ?_
      rw [← hb]
      show (match d.opn with | some w => ({ d with sets := d.sets ++ [w], opn := none } : Doc) | none => d).sbs = _
      cases d.opn <;> rfl
    | blocks b len => exact .open sb (blocks_ok hc h hr) hb
    | eraB =>
      simp only [step] at hr
      split at hr
      · next hs => cases hr; exact .open sb (h.sect' (Or.inl hs) (Or.inr rfl)) hb
      · cases hr
    | eraE =>
      simp only [step] at hr
      split at hr
      · next hs => cases hr; exact .open sb (h.sect' (Or.inr hs) (Or.inl rfl)) hb
      · cases hr
    | era b e => exact .open sb (era_ok hc h hr).2 hb
    | eof =>
      simp only [step] at hr
      simp only [hsect.2, if_false] at hr
      cases hr
  | done sb h hb =>
    have hsect := h.sect
    cases e with
    | sbB sb' =>
      have hr : superblockB cfg sb' s = .ok r := hr
      unfold superblockB at hr
      rw [if_pos (by rw [hsect]; decide)] at hr
      cases hr
    | sbE =>
      have hr : finalize cfg s = .ok r := hr
      unfold finalize at hr
      simp only [h.hsb] at hr
      cases hr
    | wsB e k =>
      have hr : writesetB cfg e k s = .ok r := hr
      unfold writesetB at hr
      rw [if_pos (by rw [hsect]; decide)] at hr
      cases hr
    | wsE =>
      have hr : writesetE cfg s = .ok r := hr
      unfold writesetE at hr
      rw [if_pos (by rw [hsect]; decide)] at hr
      cases hr
    | blocks b len =>
      have hr : writesetBlocks b len s = .ok r := hr
      unfold writesetBlocks at hr
      rcases h.rest with h0 | ⟨ab, nr, ps, h1, h2, h3⟩
      · rw [h0] at hr; cases hr
      · rw [h1] at hr
        simp only at hr
        cases e1 : pushAll (EraR.blocksW ⟨s.ei, s.buf, []⟩ (b, len)).pushes (some ab) s.dev with
        | error err => rw [e1] at hr; cases hr
        | ok q =>
          obtain ⟨ab1, dev1⟩ := q
          rw [e1] at hr
          cases hr
          obtain ⟨-, p1, p2, new, pb, p3⟩ := pushAll_ok hc.e8 h2 h.inv h3 e1
          have hne : d.opn ≠ none := fun eo => by rw [h.same eo] at h1; cases h1
          have hne' : (d.add (.blocks b len)).opn ≠ none := by
            show d.opn.map _ ≠ none
            simpa using hne
          obtain ⟨smRoot, tree, eras, S, ht, t, Be, dead, left, dev, mid, o1, o2⟩ := h.out
          refine .done sb ⟨hsect, h.hsb, h.eraB, p3.sm, Or.inr ⟨ab1, nr, _, rfl, p1, p2⟩, fun eo => absurd eo hne', h.order,
            smRoot, tree, eras, S, ht, t, Be, dead, left, dev, mid, o1, ?_⟩ hb
          exact o2.grown p3.grown rfl rfl hne'
    | eraB =>
      simp only [step] at hr
      rw [if_neg (by rw [hsect]; decide)] at hr
      cases hr
    | eraE =>
      simp only [step] at hr
      rw [if_neg (by rw [hsect]; decide)] at hr
      cases hr
    | era b e =>
      have hr : era b e s = .ok r := hr
      unfold era at hr
      rw [h.eraB] at hr
      cases hr
    | eof =>
      simp only [step] at hr
      rw [if_pos hsect] at hr
      cases hr
      exact .done sb h hb

theorem run_ok {cfg : Cfg} {n max : Nat} (hc : CfgOk cfg n) (hsm : SmOk n max cfg) (evs : List EEv) : ∀ {d : Doc} {s : RSt}, Phase cfg n max d s →
    ∀ {r : RSt}, run cfg evs s = .ok r → Phase cfg n max (evs.foldl Doc.add d) r := by
  induction evs with
  | nil => intro d s h r hr; cases hr; exact h
  | cons e evs ih =>
    intro d s h r hr
    unfold run at hr
    cases e1 : step cfg s e with
    | error err => rw [e1] at hr; cases hr
    | ok s1 =>
      rw [e1] at hr
      exact ih (step_ok hc hsm h e1) hr

theorem run_append {cfg : Cfg} (a b : List EEv) : ∀ {s : RSt}, run cfg (a ++ b) s = match run cfg a s with | .error e => .error e | .ok s => run cfg b s := by
  induction a with
  | nil => intro s; rfl
  | cons e a ih =>
    intro s
    rw [List.cons_append, run, run]
    cases step cfg s e with
    | error err => rfl
    | ok s1 => exact ih

/-- C61: an accepted document has exactly one superblock, and was restored completely -/
theorem restored_done {cfg : Cfg} {n max : Nat} (hc : CfgOk cfg n) (hsm : SmOk n max cfg) {body : List EEv} {dev : ASt Nat} (hdev : New n max dev)
    {r : RSt} (hr : restore cfg (body ++ [.eof]) dev = .ok r) : ∃ sb, (docOf body).sbs = [sb] ∧ Done cfg n max sb (docOf body) r := by
  unfold restore at hr
  rw [run_append] at hr
  cases e : run cfg body (RSt.new dev) with
  | error err => rw [e] at hr; cases hr
  | ok s =>
    rw [e] at hr
    have hp := run_ok hc hsm body (.start dev hdev rfl rfl) e
    simp only [run, step] at hr
    by_cases hs : s.sect = .finalized
    · rw [if_pos hs] at hr
      cases hr
      cases hp with
      | start dev h hs' hd => rw [hs'] at hs; cases hs
      | «open» sb h hb =>
        have := h.sect
        cases eo : (docOf body).opn with
        | none => rw [show (List.foldl Doc.add Doc.empty body).opn = none from eo, hs] at this; simp at this
        | some w => rw [show (List.foldl Doc.add Doc.empty body).opn = some w from eo, hs] at this; cases this
      | done sb h hb => exact ⟨sb, hb, h⟩
    · rw [if_neg hs] at hr
      cases hr

end Verif.EraT
