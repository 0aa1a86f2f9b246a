import Verif.Prop.CopierRun
import Verif.Prop.BlockIo

/-!
# C40: the two implementations of block I/O meet the contract of the copier
-/

namespace Verif.Cop

variable {β : Type}

/-- the blocks of one device -/
def onDevice (store : Loc → β) (d : Bool) : Nat → β := fun p => store (d, p)

/-- the devices after a change of one -/
def setDevice (store : Loc → β) (d : Bool) (dev : Nat → β) : Loc → β := fun l => if l.1 = d then dev l.2 else store l

theorem readCall_of_ok {c : Cfg} {store : Loc → β} {b n : Nat} {r : List β × List Bool}
    (h : Bio.ReadOK c.blockSize (onDevice store false) (b * c.blockSize + c.srcOffset) n r) : ReadCall store (fun j => c.srcLoc (b + j)) n r.1 (some r.2) := by
  refine ⟨h.bufs, ?_⟩
  intro rs e
  cases e
  refine ⟨h.results, ?_⟩
  intro j hj
  rw [h.read j hj]
  simp only [onDevice, Cfg.srcLoc, Nat.add_mul]
  congr 3
  omega

theorem writeCall_of_ok {c : Cfg} {store : Loc → β} {b : Nat} {bufs : List β} {r : (Nat → β) × List Bool}
    (h : Bio.WriteOK c.blockSize (onDevice store (!c.inFile)) (b * c.blockSize + c.dstOffset) bufs r) :
    WriteCall store (fun j => c.dstLoc (b + j)) bufs (setDevice store (!c.inFile) r.1) (some r.2) := by
  refine ⟨?_, ?_⟩
  · intro l hl
    obtain ⟨d, p⟩ := l
    simp only [setDevice]
    by_cases hd : d = !c.inFile
    · rw [if_pos hd, h.frame p]
      · simp only [onDevice, hd]
      · intro j hj e
        refine hl j hj ?_
        simp only [Cfg.dstLoc, Nat.add_mul, Prod.mk.injEq]
        exact ⟨hd, by omega⟩
    · rw [if_neg hd]
  · intro rs e
    cases e
    refine ⟨h.results, ?_⟩
    intro j x hj hx
    have := h.written j x hj hx
    simp only [setDevice, Cfg.dstLoc, if_true]
    rw [← this, show (b + j) * c.blockSize + c.dstOffset = b * c.blockSize + c.dstOffset + j * c.blockSize by rw [Nat.add_mul]; omega]

/-- what `VectoredBlockIo::read_blocks` returns is allowed -/
theorem vectored_readCall (c : Cfg) (hb : 0 < c.blockSize) (ans : Nat → Nat → Bio.RAns β) (store : Loc → β) (b : Nat) (bufs : List β) (r : List β × List Bool)
    (h : Bio.readBlocks c.blockSize ans (onDevice store false) (b * c.blockSize + c.srcOffset) bufs = some r) :
    ReadCall store (fun j => c.srcLoc (b + j)) bufs.length r.1 (some r.2) :=
  readCall_of_ok (Bio.readBlocks_sound _ hb _ _ _ _ _ h)

/-- what `VectoredBlockIo::write_blocks` does is allowed -/
theorem vectored_writeCall (c : Cfg) (hb : 0 < c.blockSize) (ans : Nat → Nat → Bio.WAns β) (store : Loc → β) (b : Nat) (bufs : List β) (r : (Nat → β) × List Bool)
    (h : Bio.writeBlocks c.blockSize ans (b * c.blockSize + c.dstOffset) bufs (onDevice store (!c.inFile)) = some r) :
    WriteCall store (fun j => c.dstLoc (b + j)) bufs (setDevice store (!c.inFile) r.1) (some r.2) :=
  writeCall_of_ok (Bio.writeBlocks_sound _ hb _ _ _ _ _ h)

/-- what `SimpleBlockIo::read_blocks` returns is allowed -/
theorem simple_readCall (c : Cfg) (ans : Nat → Option (Option β)) (store : Loc → β) (i b : Nat) (bufs : List β) :
    ReadCall store (fun j => c.srcLoc (b + j)) bufs.length (Bio.simpleRead c.blockSize ans (onDevice store false) i (b * c.blockSize + c.srcOffset) bufs).1
      (some (Bio.simpleRead c.blockSize ans (onDevice store false) i (b * c.blockSize + c.srcOffset) bufs).2) :=
  readCall_of_ok (Bio.simpleRead_correct _ _ _ _ _ _)

/-- what `SimpleBlockIo::write_blocks` does is allowed -/
theorem simple_writeCall (c : Cfg) (hb : 0 < c.blockSize) (ans : Nat → Option (Option β)) (store : Loc → β) (i b : Nat) (bufs : List β) :
    WriteCall store (fun j => c.dstLoc (b + j)) bufs
      (setDevice store (!c.inFile) (Bio.simpleWrite c.blockSize ans i (b * c.blockSize + c.dstOffset) bufs (onDevice store (!c.inFile))).1)
      (some (Bio.simpleWrite c.blockSize ans i (b * c.blockSize + c.dstOffset) bufs (onDevice store (!c.inFile))).2) :=
  writeCall_of_ok (Bio.simpleWrite_correct _ hb _ _ _ _ _)

/-! ## Examples -/

/-- three moves inside one device, in chunks of two blocks -/
def exCfg : Cfg := ⟨2, 1, 0, 0, true⟩
def exOps : List CopyOp := [⟨0, 10⟩, ⟨5, 7⟩, ⟨1, 11⟩]

theorem exSeparate : Separate exCfg exOps := ⟨by decide, by decide⟩

/-- the copy ends, and the three blocks are accounted for -/
example (store0 : Loc → Nat) : ∃ u : St Nat, Steps exCfg (St.init exCfg exOps store0) u ∧ u.finished ∧ Copied exCfg exOps store0 u.store u.stats :=
  copy_completes (by decide) (by decide) exSeparate (.refl _)

example : (St.init exCfg exOps (fun l => l.2)).chunks = [[⟨0, 10⟩, ⟨5, 7⟩], [⟨1, 11⟩]] := by decide
example : readOps [⟨5, 10⟩, ⟨0, 7⟩, ⟨1, 11⟩] = [⟨0, 2, [1, 2]⟩, ⟨5, 6, [0]⟩] := by decide

end Verif.Cop
