import Verif.Model.Copier
import Verif.Model.Rescue

/-!
# Progress of a copy (`src/copier/report.rs`, and where the copiers call it)

What is shown is a percentage and, once there are errors, a line with their numbers.
-/

namespace Verif.CopyProg

open Verif.Cop

variable {β : Type}

/-- `AccumulatedStats`, `src/copier/report.rs:18-30` -/
structure Acc where
  blocks : Nat
  copied : Nat
  readErrs : Nat
  writeErrs : Nat
  deriving Repr, DecidableEq

/-- `ProgressReporter::new`, `src/copier/report.rs:41-51` -/
def Acc.new (blocks : Nat) : Acc := ⟨blocks, 0, 0, 0⟩

/-- the percentage, and the line about errors if it is set -/
structure Shown where
  percent : Nat
  errors : Option (Nat × Nat)
  deriving Repr, DecidableEq

/-- `update_progress`, `src/copier/report.rs:62-65`: the product wraps in release builds, `as u8` keeps the last eight bits -/
def percent (copied blocks : Nat) : Nat := (if blocks = 0 then 100 else copied * 100 % 2 ^ 64 / blocks) % 256

/-- `update_error_logs`, `src/copier/report.rs:53-60` -/
def errorLine (r w : Nat) : Option (Nat × Nat) := if r > 0 ∨ w > 0 then some (r, w) else none

/-- `update`, `src/copier/report.rs:71-79` -/
def update (a : Acc) (st : Stats) : Shown :=
  ⟨percent (a.copied + st.nrCopied) a.blocks, errorLine (a.readErrs + st.readErrors.length) (a.writeErrs + st.writeErrors.length)⟩

/-- the sums of `inc_stats`, `src/copier/report.rs:83-87` -/
def Acc.add (a : Acc) (st : Stats) : Acc :=
  ⟨a.blocks, a.copied + st.nrCopied, a.readErrs + st.readErrors.length, a.writeErrs + st.writeErrors.length⟩

/-- what `inc_stats` shows, `src/copier/report.rs:89-90` -/
def Acc.shown (a : Acc) : Shown := ⟨percent a.copied a.blocks, errorLine a.readErrs a.writeErrs⟩

/-- the call of `update` in a step of the two threads, `src/copier/sync_copier.rs:313-315`: when the writing thread has finished
a message, with the statistics it has just changed (the lock is still held) -/
def called (s t : St β) : List Stats :=
  match s.writer, t.writer with
  | .writing _ _ _, .wait => [t.stats]
  | _, _ => []

/-- any number of steps of `SyncCopier::copy`, with the statistics given to `update` -/
inductive Trace (c : Cfg) : St β → List Stats → St β → Prop
  | refl (s : St β) : Trace c s [] s
  | tail {s t u : St β} {us : List Stats} : Trace c s us t → Step c t u → Trace c s (us ++ called t u) u

/-- a whole `SyncCopier::copy`: the calls of `update`, and the statistics given to `inc_stats` (`src/copier/sync_copier.rs:352-353`) -/
def syncCopy (c : Cfg) (store : Loc → β) (ops : List CopyOp) (us : List Stats) (st : Stats) : Prop :=
  ∃ u : St β, Trace c (St.init c ops store) us u ∧ u.finished ∧ st = u.stats

/-- a whole `RescueCopier::copy`, which calls `inc_stats` only (`src/copier/rescue_copier.rs:144`) -/
def rescueCopy (β : Type) (c : Resc.Cfg) (ops : List CopyOp) (us : List Stats) (st : Stats) : Prop :=
  us = [] ∧ ∃ rd wr buf store, ∃ u : Resc.St β, Resc.copy c rd wr ops buf store = some u ∧ st = u.stats

/-- one reporter for the copies of several batches one after the other: what it shows, and its sums at the end -/
inductive Session (copy : List CopyOp → List Stats → Stats → Prop) : List (List CopyOp × Stats) → Acc → List Shown → Acc → Prop
  | nil (a : Acc) : Session copy [] a [] a
  | batch {ops us st rest a shown a'} : copy ops us st → Session copy rest (a.add st) shown a' →
      Session copy ((ops, st) :: rest) a (us.map (update a) ++ (a.add st).shown :: shown) a'

end Verif.CopyProg
