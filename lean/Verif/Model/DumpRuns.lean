/-!
# Mapping runs of `thin_dump` (`src/thin/dump.rs`)

Block numbers are natural numbers (`thin_begin + len` and `data_begin + len` do not overflow for real blocks).
-/

namespace Verif.Dump

/-- a mapping entry of a leaf: thin block, data block, time -/
structure Entry where
  thin : Nat
  data : Nat
  time : Nat
  deriving Repr, DecidableEq

/-- `src/thin/ir.rs` (`Map`) -/
structure Run where
  thin : Nat
  data : Nat
  time : Nat
  len : Nat
  deriving Repr, DecidableEq

/-- `src/thin/dump.rs:35-68` (`RunBuilder::next`): the new state and the run that is returned -/
def next (run : Option Run) (e : Entry) : Option Run × Option Run :=
  match run with
  | none => (some ⟨e.thin, e.data, e.time, 1⟩, none)
  | some r =>
    if e.thin = r.thin + r.len ∧ e.data = r.data + r.len ∧ r.time = e.time then
      (some { r with len := r.len + 1 }, none)
    else (some ⟨e.thin, e.data, e.time, 1⟩, some r)

/-- `src/thin/dump.rs:103-120` (`MappingVisitor::visit`): one leaf.  Errors of the output, which end the dump, are not modelled. -/
def visit (out : Option Run) : List Entry → Option Run × List Run
  | [] => (out, [])
  | e :: es =>
    let r := next out e
    let rest := visit r.1 es
    (rest.1, r.2.toList ++ rest.2)

/-- All leaves of a device in order, then `end_walk`, `src/thin/dump.rs:122-129`. -/
def visitLeaves (out : Option Run) : List (List Entry) → List Run
  | [] => out.toList
  | l :: ls =>
    let r := visit out l
    r.2 ++ visitLeaves r.1 ls

/-- `src/thin/dump.rs:98-130` for one device -/
def dumpDevice (leaves : List (List Entry)) : List Run := visitLeaves none leaves

end Verif.Dump
