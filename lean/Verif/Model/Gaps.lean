/-!
# Aggregation of block reads and writes (`src/io_engine/gaps.rs`, `src/io_engine/sync.rs`)

Block numbers are natural numbers (`b + 1` cannot overflow for a block that exists).
-/

namespace Verif.Gaps

/-- `src/io_engine/gaps.rs:2-5` -/
inductive RunOp where
  | run (b e : Nat)
  | gap (b e : Nat)
  deriving Repr, DecidableEq

/-- the loop of `find_runs`, `src/io_engine/gaps.rs:13-39`, with `last = Some((begin, end))` -/
def findRunsGo (thr : Nat) : Nat → Nat → List Nat → List RunOp
  | begin, fin, [] => [.run begin fin]
  | begin, fin, b :: bs =>
    if b > fin then
      if b - fin > thr then .run begin fin :: findRunsGo thr b (b + 1) bs
      else .run begin fin :: .gap fin b :: findRunsGo thr b (b + 1) bs
    else if b = fin then findRunsGo thr begin (b + 1) bs
    else .run begin fin :: findRunsGo thr b (b + 1) bs

/-- `src/io_engine/gaps.rs:7-42` -/
def findRuns (thr : Nat) : List Nat → List RunOp
  | [] => []
  | b :: bs => findRunsGo thr b (b + 1) bs

/-- ends of an operation -/
def RunOp.beg : RunOp → Nat
  | .run b _ => b
  | .gap b _ => b

/-- ends of an operation -/
def RunOp.fin : RunOp → Nat
  | .run _ e => e
  | .gap _ e => e

/-- the loop of `batch_adjacent`, `src/io_engine/gaps.rs:148-185`, with a non-empty `batch` and `last = Some(l)`.  The
`Run` and `Gap` arms do the same. -/
def batchGo : List RunOp → Nat → List RunOp → List (List RunOp)
  | batch, _, [] => [batch]
  | batch, l, r :: rs =>
    if r.beg = l then batchGo (batch ++ [r]) r.fin rs
    else batch :: batchGo [r] r.fin rs

/-- `src/io_engine/gaps.rs:141-188` -/
def batchAdjacent : List RunOp → List (List RunOp)
  | [] => []
  | r :: rs => batchGo [r] r.fin rs

/-- `src/io_engine/gaps.rs:262-283` -/
def splitOp (op : RunOp) (remaining : Nat) : RunOp × Option RunOp × Nat :=
  match op with
  | .run b e =>
    if e - b ≤ remaining then (.run b e, none, remaining - (e - b))
    else (.run b (b + remaining), some (.run (b + remaining) e), 0)
  | .gap b e =>
    if e - b < remaining then (.gap b e, none, remaining - (e - b))
    else (.gap b (b + remaining), some (.gap (b + remaining) e), 0)

/-- The loop of `split_contiguous`, `src/io_engine/gaps.rs:292-312`; the current operation is the head of the list.  The
first argument bounds the number of iterations (`none`: it was too small). -/
def splitGo (max : Nat) : Nat → Nat → List RunOp → List RunOp → Option (List (List RunOp))
  | _, _, batch, [] => some (if batch = [] then [] else [batch])
  | 0, _, _, _ :: _ => none
  | fuel + 1, remaining, batch, op :: ops =>
    let r := splitOp op remaining
    let ops := match r.2.1 with
      | none => ops
      | some rest => rest :: ops
    if r.2.2 = 0 then
      (splitGo max fuel max [] ops).map (fun l => (batch ++ [r.1]) :: l)
    else splitGo max fuel r.2.2 (batch ++ [r.1]) ops

/-- size of a list of operations, plus one per operation -/
def opsMeasure : List RunOp → Nat
  | [] => 0
  | op :: ops => (op.fin - op.beg) + 1 + opsMeasure ops

/-- `src/io_engine/gaps.rs:285-313`; `none` if the loop does not end within the bound -/
def splitContiguous (max : Nat) (runs : List RunOp) : Option (List (List RunOp)) :=
  splitGo max (opsMeasure runs) max [] runs

/-- `src/io_engine/gaps.rs:317-325` -/
def splitBatches (max : Nat) : List (List RunOp) → Option (List (List RunOp))
  | [] => some []
  | b :: bs =>
    match splitContiguous max b, splitBatches max bs with
    | some x, some y => some (x ++ y)
    | _, _ => none

/-- `src/io_engine/gaps.rs:368-370` -/
def generateRuns (blocks : List Nat) (thr max : Nat) : Option (List (List RunOp)) :=
  splitBatches max (batchAdjacent (findRuns thr blocks))

/-- `src/io_engine/gaps.rs:372-388` -/
def countGaps (batches : List (List RunOp)) : Nat :=
  (batches.flatten.map fun op => match op with | .gap b e => e - b | .run _ _ => 0).sum

/-- `src/io_engine/sync.rs:239-266` without the special cases for no and one block (they give the same) -/
def findRunsNogapGo (maxLen : Nat) : Nat → Nat → List Nat → List (Nat × Nat)
  | begin, len, [] => [(begin, len)]
  | begin, len, b :: bs =>
    if b = begin + len ∧ len < maxLen then findRunsNogapGo maxLen begin (len + 1) bs
    else (begin, len) :: findRunsNogapGo maxLen b 1 bs

/-- `src/io_engine/sync.rs:239-266` -/
def findRunsNogap (maxLen : Nat) : List Nat → List (Nat × Nat)
  | [] => []
  | b :: bs => findRunsNogapGo maxLen b 1 bs

variable {D : Type}

/-- The requests of one batch that remain to be matched, `src/io_engine/sync.rs:86-111`: the assertion of line 93
compares them with the requested blocks; `none` is the panic. -/
def matchRuns : List RunOp → List Nat → Option (List Nat)
  | [], bs => some bs
  | .gap _ _ :: ops, bs => matchRuns ops bs
  | .run b e :: ops, bs =>
    if bs.take (e - b) = List.range' b (e - b) then matchRuns ops (bs.drop (e - b)) else none

/-- Number of buffers of a batch, `src/io_engine/sync.rs:86-111`. -/
def nrBuffers : List RunOp → Nat
  | [] => 0
  | op :: ops => (op.fin - op.beg) + nrBuffers ops

/-- `src/io_engine/sync.rs:118-140`: pick the results of the runs out of the results of the batch. -/
def selectResults : List RunOp → List (Option D) → List (Option D)
  | [], _ => []
  | .run b e :: ops, rs => rs.take (e - b) ++ selectResults ops (rs.drop (e - b))
  | .gap b e :: ops, rs => selectResults ops (rs.drop (e - b))

/-- `src/io_engine/sync.rs:141-155`: everything of the batch failed -/
def failResults : List RunOp → List (Option D)
  | [] => []
  | .run b e :: ops => List.replicate (e - b) none ++ failResults ops
  | .gap _ _ :: ops => failResults ops

/-- `src/io_engine/sync.rs:81-157`.  `vio first n` is `read_blocks` on `n` buffers from block `first`: an error for the
whole call, or a result for each buffer.  The outer `none` is a failed assertion. -/
def readBatches (vio : Nat → Nat → Option (List (Option D))) : List (List RunOp) → List Nat → Option (List (Option D))
  | [], bs => if bs = [] then some [] else none
  | batch :: batches, bs =>
    match batch.head?, matchRuns batch bs with
    | some op, some bs' =>
      match readBatches vio batches bs' with
      | some rest =>
        match vio op.beg (nrBuffers batch) with
        | some rs => some (selectResults batch rs ++ rest)
        | none => some (failResults batch ++ rest)
      | none => none
    | _, _ => none

/-- `src/io_engine/sync.rs:55-161` (`read_many`); the gap threshold is 8 and the limit `UIO_MAXIOV` -/
def readMany (vio : Nat → Nat → Option (List (Option D))) (maxIov : Nat) (blocks : List Nat) : Option (List (Option D)) :=
  match generateRuns blocks 8 maxIov with
  | some batches => readBatches vio batches blocks
  | none => none

end Verif.Gaps
