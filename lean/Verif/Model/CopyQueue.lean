import Verif.Model.Copier

/-!
# Batches of copy operations (`src/copier/batcher.rs`, `src/copier/wrapper.rs`)

What is received from the channel between the two is what was sent, in the same order (`std::sync::mpsc`).
-/

namespace Verif.CopyQ

open Verif.Cop

variable {β : Type}

/-- one step of a stable sort by `dst` -/
def insertDst (o : CopyOp) : List CopyOp → List CopyOp
  | [] => [o]
  | p :: l => if o.dst ≤ p.dst then o :: p :: l else p :: insertDst o l

/-- `sort_by(dst)`, `src/copier/batcher.rs:50` (stable) -/
def sortDst : List CopyOp → List CopyOp
  | [] => []
  | o :: l => insertDst o (sortDst l)

/-- `CopyOpBatcher`, `src/copier/batcher.rs:12-16`; `sent`: the messages sent, the channel being open -/
structure Batcher where
  size : Nat
  ops : List CopyOp
  sent : List (List CopyOp)

/-- `send_ops`, `src/copier/batcher.rs:45-54` -/
def Batcher.send (b : Batcher) : Batcher := { b with ops := [], sent := b.sent ++ [sortDst b.ops] }

/-- `push`, `src/copier/batcher.rs:28-35` -/
def Batcher.push (b : Batcher) (op : CopyOp) : Batcher :=
  let b := { b with ops := b.ops ++ [op] }
  if b.ops.length ≥ b.size then b.send else b

/-- `new`, the pushes and `complete`, `src/copier/batcher.rs:18-42` -/
def batches (size : Nat) (ops : List CopyOp) : List (List CopyOp) := (ops.foldl Batcher.push ⟨size, [], []⟩).send.sent

/-- the outcome of the worker thread, `src/copier/wrapper.rs:31-53` -/
inductive Res where
  | ok
  /-- the copier itself failed -/
  | failed
  | readError (src : Nat)
  | writeError (dst : Nat)
  deriving Repr, DecidableEq

/-- `ThreadedCopier::run_`, `src/copier/wrapper.rs:31-53`, for messages `msgs`; `copy` relates a copier's input to the store and statistics it leaves (`none`: it failed). -/
inductive Run (copy : List CopyOp → (Loc → β) → (Loc → β) → Option Stats → Prop) : List (List CopyOp) → (Loc → β) → (Loc → β) → Res → Prop
  | closed (s : Loc → β) : Run copy [] s s .ok
  | failed {ops msgs} {s t : Loc → β} : copy ops s t none → Run copy (ops :: msgs) s t .failed
  | readError {ops msgs} {s t : Loc → β} {st : Stats} {op : CopyOp} {rest : List CopyOp} : copy ops s t (some st) → st.readErrors = op :: rest →
      Run copy (ops :: msgs) s t (.readError op.src)
  | writeError {ops msgs} {s t : Loc → β} {st : Stats} {op : CopyOp} {rest : List CopyOp} : copy ops s t (some st) → st.readErrors = [] →
      st.writeErrors = op :: rest → Run copy (ops :: msgs) s t (.writeError op.dst)
  | next {ops msgs} {s t u : Loc → β} {st : Stats} {r : Res} : copy ops s t (some st) → st.readErrors = [] → st.writeErrors = [] →
      Run copy msgs t u r → Run copy (ops :: msgs) s u r

/-- `SyncCopier::copy` as a relation: any execution of its two threads that ends (`src/copier/sync_copier.rs:256-345`) -/
def syncCopy (c : Cfg) (ops : List CopyOp) (s t : Loc → β) (st : Option Stats) : Prop :=
  ∃ u : St β, Steps c (St.init c ops s) u ∧ u.finished ∧ t = u.store ∧ st = some u.stats

end Verif.CopyQ
