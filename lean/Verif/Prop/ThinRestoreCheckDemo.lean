import Verif.Prop.ThinRestoreCheck
import Verif.Prop.ThinCheckPoolDemo

/-!
# C57: every restored image has a device, and what `thin_check` says of two of them
-/

namespace Verif.Rst

open Verif.BT (Blk Tree)
open Verif.TChk (TDev)

/-! ## A device for every image -/

section
open Classical

/-- the nodes with values of one kind -/
noncomputable def only {V W : Type} (ok : V → Prop) (f : V → W) (mem : Nat → Option (Blk V)) (b : Nat) : Option (Blk W) :=
  match mem b with
  | some nd => if nd.All ok then some (nd.map f) else none
  | none => none

/-- the device that holds the image and nothing else -/
noncomputable def present (epb : Nat) (img : Image) : TDev where
  nr := img.nr
  sb := some img.sb
  sbAt := fun _ => none
  dets := fun _ b => only DetailFits detailOf img.nodes b
  tops := fun _ b => only WordFits word img.nodes b
  low := ⟨img.nr, only WordFits word img.nodes, only WordFits word img.nodes, fun _ _ => true, fun _ => true⟩
  rdn := fun _ b => img.smNodes b
  bm := fun b => match img.bitmaps b with
    | some es => if es.length = epb then some (true, es) else none
    | none => none
  index := img.index

theorem only_some {V W : Type} {ok : V → Prop} {f : V → W} {mem : Nat → Option (Blk V)} {b : Nat} {nd : Blk V} (h : mem b = some nd) (ha : nd.All ok) :
    only ok f mem b = some (nd.map f) := by
  unfold only
  rw [h]
  exact if_pos ha

theorem some_only {V W : Type} {ok : V → Prop} {f : V → W} {mem : Nat → Option (Blk V)} {b : Nat} {nd : Blk W} (h : only ok f mem b = some nd) :
    ∃ nd', mem b = some nd' ∧ nd'.All ok := by
  unfold only at h
  cases e : mem b with
  | none => rw [e] at h; cases h
  | some nd' =>
    rw [e] at h
    by_cases ha : nd'.All ok
    · exact ⟨nd', rfl, ha⟩
    · simp only [if_neg ha] at h
      cases h

theorem shows_present (epb : Nat) (img : Image) : Shows epb (present epb img) img where
  nr := rfl
  lowNr := rfl
  sb := rfl
  tops := ⟨_, rfl, fun _ _ h ha => only_some h ha⟩
  dets := ⟨_, rfl, fun _ _ h ha => only_some h ha⟩
  low := fun _ _ h ha => only_some h ha
  readAll := ⟨fun _ _ h => h, fun _ _ => rfl, fun _ => rfl⟩
  rest := fun _ _ h => Or.inl (some_only h)
  sms := ⟨_, rfl, fun _ _ h => h⟩
  bitmaps := fun b es h hl => by
    show (match img.bitmaps b with | some es => if es.length = epb then some (true, es) else none | none => none) = _
    rw [h]
    exact if_pos hl
  rows := fun b tag es h => by
    have h : (match img.bitmaps b with | some es => if es.length = epb then some (true, es) else none | none => none) = some (tag, es) := h
    cases e : img.bitmaps b with
    | none => rw [e] at h; cases h
    | some es' =>
      rw [e] at h
      by_cases hl : es'.length = epb
      · simp only [if_pos hl, Option.some.injEq, Prod.mk.injEq] at h
        rw [← h.2]; exact hl
      · simp only [if_neg hl] at h; cases h
  index := fun _ _ h => h

end

/-! ## Two documents -/

/-- `demoSects` with another `mapped_blocks` for its first device -/
def demoWith (mapped : Nat) : List (Sect Nat) :=
  [.def 7 [⟨0, 10, 1, 3⟩, ⟨10, 20, 1, 2⟩], .dev ⟨1, ⟨mapped, 1, 1, 1⟩⟩ [.ref 7], .dev ⟨0, ⟨7, 1, 1, 1⟩⟩ [.ref 7, .run ⟨20, 30, 2, 2⟩]]

theorem demoWith_consistent (m : Nat) : Consistent (fun _ => none) (demoWith m) := by
  refine ⟨rfl, ?_, ?_, ?_, ?_, ?_, trivial⟩
  · unfold Bld.Sorted; decide
  · intro n hn
    simp only [List.mem_singleton, Seg.ref.injEq] at hn
    subst hn
    exact ⟨_, rfl, Or.inl (by decide)⟩
  · unfold Bld.Sorted; decide
  · intro n hn
    simp only [List.mem_cons, Seg.ref.injEq, reduceCtorEq, List.not_mem_nil, or_false] at hn
    subst hn
    exact ⟨_, rfl, Or.inl (by decide)⟩
  · unfold Bld.Sorted; decide

theorem demoWith_meaning (m : Nat) : meaning (fun _ => none) (demoWith m) =
    [(⟨1, ⟨m, 1, 1, 1⟩⟩, [(0, .bt 10 1), (1, .bt 11 1), (2, .bt 12 1), (10, .bt 20 1), (11, .bt 21 1)]),
     (⟨0, ⟨7, 1, 1, 1⟩⟩, [(0, .bt 10 1), (1, .bt 11 1), (2, .bt 12 1), (10, .bt 20 1), (11, .bt 21 1), (20, .bt 30 2), (21, .bt 31 2)])] := rfl

theorem demoWith_fits {m : Nat} (hm : m < 2 ^ 64) : Fits (meaning (fun _ => none) (demoWith m)) := by
  rw [demoWith_meaning]
  refine ⟨?_, ?_, ?_, ?_, (by show 2 < 2 ^ 32; decide)⟩
  · simp
  · intro p hp
    simp only [List.mem_cons, List.not_mem_nil, or_false] at hp
    rcases hp with rfl | rfl
    · exact ⟨hm, (by show 1 < 2 ^ 64; decide), (by show 1 < 2 ^ 32; decide), (by show 1 < 2 ^ 32; decide)⟩
    · exact ⟨by decide, by decide, by decide, by decide⟩
  · intro p hp
    simp only [List.mem_cons, List.not_mem_nil, or_false] at hp
    rcases hp with rfl | rfl
    · show ∀ e ∈ [(0, Val.bt 10 1), (1, .bt 11 1), (2, .bt 12 1), (10, .bt 20 1), (11, .bt 21 1)], e.1 < 2 ^ 64 - 1
      decide
    · decide
  · intro p hp
    simp only [List.mem_cons, List.not_mem_nil, or_false] at hp
    rcases hp with rfl | rfl <;> intro e he <;> simp only [List.mem_cons, List.not_mem_nil, or_false] at he
    · rcases he with rfl | rfl | rfl | rfl | rfl <;> exact ⟨_, _, rfl, by decide, by decide⟩
    · rcases he with rfl | rfl | rfl | rfl | rfl | rfl | rfl <;> exact ⟨_, _, rfl, by decide, by decide⟩

/-- restored into thirty metadata blocks with sixteen entries in a bitmap -/
def demoImage (m : Nat) : Except RErr Image := restoreAll 16 (docEvents ⟨0, 1, 128, 40⟩ (demoWith m)) ⟨fun _ => none, SM.Core.new 255 30, [], []⟩

theorem demo_size : CacheM.SmSize 16 30 := ⟨by decide, by decide, by decide, by decide, by decide⟩

theorem demo_check {m : Nat} (hm : m < 2 ^ 64) {img : Image} (hi : demoImage m = .ok img) (o : TChk.TOpts) (ho : o.full) (w : TChk.Wr) :
    (TChk.check CacheM.rootIn (TChk.bottomOf (present 16 img).low o.ign (present 16 img).nr) w o (present 16 img)).2 = .ok ↔ m = 5 := by
  rw [(restore_check demo_size (by decide) (by decide) _ _ ⟨by decide, by decide, by decide⟩ (by decide) (demoWith m) (demoWith_consistent m) (by rw [demoWith_meaning]; simp)
    (demoWith_fits hm) (by rw [demoWith_meaning]; intro p hp; simp only [List.mem_cons, List.not_mem_nil, or_false] at hp; rcases hp with rfl | rfl <;> simp [refs]) hi
    (shows_present 16 img) ho w (Nat.le_refl _) _ (fun roots msm dsm => TChk.bottomOf_ok _ _ _ _ _ _)).1]
  rw [demoWith_meaning]
  simp [MappedRight]

/-- what was written where -/
example : (demoImage 5).toOption.map (fun i => ((List.range 30).filter fun b => (i.nodes b).isSome, (List.range 30).filter fun b => (i.smNodes b).isSome,
    (List.range 30).filter fun b => (i.bitmaps b).isSome, (List.range 30).filter fun b => (i.index b).isSome)) = some ([1, 2, 3, 4], [8, 9, 12], [5, 6, 7, 10, 11], [13]) := by
  decide +kernel

/-- the restored metadata passes if the document is right -/
theorem restore_check_demo : ∃ img, demoImage 5 = .ok img ∧ ∀ (o : TChk.TOpts), o.full → ∀ w,
    (TChk.check CacheM.rootIn (TChk.bottomOf (present 16 img).low o.ign (present 16 img).nr) w o (present 16 img)).2 = .ok := by
  have h : (demoImage 5).toOption.isSome = true := by decide +kernel
  cases e : demoImage 5 with
  | error _ => rw [e] at h; cases h
  | ok img => exact ⟨img, rfl, fun o ho w => (demo_check (by decide) e o ho w).mpr rfl⟩

/-- Not every restored document passes: `thin_restore` does not look at `mapped_blocks`, and `thin_check` does. -/
theorem restore_check_refuted : ∃ img, demoImage 4 = .ok img ∧ ∀ (o : TChk.TOpts), o.full → ∀ w,
    (TChk.check CacheM.rootIn (TChk.bottomOf (present 16 img).low o.ign (present 16 img).nr) w o (present 16 img)).2 ≠ .ok := by
  have h : (demoImage 4).toOption.isSome = true := by decide +kernel
  cases e : demoImage 4 with
  | error _ => rw [e] at h; cases h
  | ok img => exact ⟨img, rfl, fun o ho w h => absurd ((demo_check (by decide) e o ho w).mp h) (by decide)⟩

end Verif.Rst
