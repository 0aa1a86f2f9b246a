/-!
# Finding shared runs of leaves (`src/thin/runs.rs`)

Bit sets are predicates, maps are partial functions; the ordered set of neighbours is a strictly increasing list.
A panic of the code is `none`.
-/

namespace Verif.Gather

/-- `src/thin/runs.rs:17-24`; `cap` is the capacity of the bit sets -/
structure G where
  cap : Nat
  prev : Option Nat
  heads : Nat → Bool
  tails : Nat → Bool
  entries : Nat → Option (List Nat)
  back : Nat → Option Nat
  shared : Nat → Bool

/-- `src/thin/runs.rs:27-36` -/
def G.new (cap : Nat) : G where
  cap := cap
  prev := none
  heads := fun _ => false
  tails := fun _ => false
  entries := fun _ => none
  back := fun _ => none
  shared := fun _ => false

/-- `FixedBitSet::insert` -/
def ins (f : Nat → Bool) (b : Nat) : Nat → Bool := fun x => decide (x = b) || f x

/-- assignment to a map -/
def upd {α : Type} (f : Nat → Option α) (b : Nat) (v : α) : Nat → Option α := fun x => if x = b then some v else f x

/-- `BTreeSet::insert` on an increasing list -/
def insertSorted (b : Nat) : List Nat → List Nat
  | [] => [b]
  | c :: cs => if b < c then b :: c :: cs else if b = c then c :: cs else c :: insertSorted b cs

/-- `src/thin/runs.rs:42-46` -/
def G.markHead (g : G) (b : Nat) : G :=
  { g with heads := ins g.heads b, shared := if g.heads b then ins g.shared b else g.shared }

/-- `src/thin/runs.rs:56-62` (and `mark_tail`, 52-54) -/
def G.newSeq (g : G) : G :=
  match g.prev with
  | some b => { g with tails := ins g.tails b, prev := none }
  | none => { g with prev := none }

/-- `src/thin/runs.rs:79-83`: the end of `next` -/
def G.visit (g : G) (b : Nat) : G :=
  { g with
    entries := (match g.entries b with
      | some _ => g.entries
      | none => upd g.entries b [])
    prev := some b }

/-- `src/thin/runs.rs:64-84`.  Simplification: a block number beyond the capacity is a panic at once; in the code it is
one at the latest in `gather`. -/
def G.next (g : G) (b : Nat) : Option G :=
  if g.cap ≤ b then none
  else
    match g.prev with
    | none => some ((g.markHead b).visit b)
    | some p =>
      match g.entries p with
      | none => none
      | some ns =>
        let g1 := { g with
          entries := upd g.entries p (insertSorted b ns)
          shared := if ns.contains b then ins g.shared b else g.shared }
        let g2 := match g1.back b with
          | some q => if q = p then g1 else g1.markHead b
          | none => { g1 with back := upd g1.back b p }
        some (g2.visit b)

/-- the test of lines 109-119 of `src/thin/runs.rs` for block `b` -/
def G.extraTail (g : G) (b : Nat) : Bool :=
  match g.entries b with
  | none => false
  | some ns => decide (ns.length ≠ 1) || (match ns.head? with
    | none => false
    | some n => g.heads n)

/-- tails after `src/thin/runs.rs:109-123` -/
def G.allTails (g : G) (b : Nat) : Bool := g.tails b || g.extraTail b

/-- the neighbours of tails in the order `src/thin/runs.rs:126-128` visits them -/
def G.targets (g : G) : List Nat :=
  ((List.range g.cap).filter g.allTails).flatMap fun t => (g.entries t).getD []

/-- `src/thin/runs.rs:129-131` over all of them -/
def putAll : List Nat → (Nat → Bool) × (Nat → Bool) → (Nat → Bool) × (Nat → Bool)
  | [], r => r
  | n :: ns, (heads, shared) => putAll ns (ins heads n, if heads n then ins shared n else shared)

/-- `src/thin/runs.rs:105-135` (`complete_heads_and_tails`) -/
def G.complete (g : G) : G :=
  let r := putAll g.targets (g.heads, g.shared)
  { g with tails := g.allTails, heads := r.1, shared := r.2 }

/-- the loop of `extract_seq`, `src/thin/runs.rs:92-102`; the first argument bounds the number of rounds -/
def G.extract (g : G) : Nat → Nat → Option (List Nat)
  | 0, _ => none
  | fuel + 1, b =>
    if g.tails b then some [b]
    else
      match g.entries b with
      | none => none
      | some ns =>
        match ns.head? with
        | none => none
        | some n => (g.extract fuel n).map fun r => b :: r

/-- `mapM` written out -/
def collect {α β : Type} (f : α → Option β) : List α → Option (List β)
  | [] => some []
  | a :: l =>
    match f a, collect f l with
    | some x, some xs => some (x :: xs)
    | _, _ => none

/-- `src/thin/runs.rs:138-151` (`gather`); the loop of `extract_seq` runs at most `cap` rounds -/
def G.gather (g : G) : Option (List (List Nat × Bool)) :=
  let g := g.newSeq.complete
  collect (fun b => (g.extract g.cap b).map fun r => (r, g.shared b)) ((List.range g.cap).filter g.heads)

/-- several calls of `next` -/
def G.nextAll : G → List Nat → Option G
  | g, [] => some g
  | g, b :: bs => (g.next b).bind fun g => g.nextAll bs

/-- `new_seq` and then `next` for each element, for each sequence (`src/thin/metadata.rs:236-248`, where all entries are
leaves) -/
def G.feed : G → List (List Nat) → Option G
  | g, [] => some g
  | g, s :: ss => (g.newSeq.nextAll s).bind fun g => g.feed ss

/-- everything: `Gatherer::new`, the sequences, `gather` -/
def gatherAll (cap : Nat) (seqs : List (List Nat)) : Option (List (List Nat × Bool)) :=
  ((G.new cap).feed seqs).bind G.gather

end Verif.Gather
