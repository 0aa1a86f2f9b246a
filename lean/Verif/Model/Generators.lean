import Verif.Model.CacheIr
import Verif.Model.Xml

/-!
# The metadata generators (`src/cache/metadata_generator.rs`, `src/era/metadata_generator.rs`)

What the random number generators return is a parameter.  A document is the sequence of visitor calls, which go straight to the restorer
(`src/cache/metadata_generator.rs:146-153`, `src/era/metadata_generator.rs:165-172`).
-/

namespace Verif.Gen

open Verif.CacheM (SbIr Ev)
open Verif.Xml (ESb EEv)

/-! ## cache_generate_metadata -/

/-- `CacheGenerator`, `src/cache/metadata_generator.rs:20-28`; the metadata version is the restorer's affair -/
structure CacheParams where
  blockSize : Nat
  nrCache : Nat
  nrOrigin : Nat
  percentResident : Nat
  percentDirty : Nat
  hotspot : Nat

/-- `src/cache/metadata_generator.rs:69-72` -/
def nrResident (p : CacheParams) : Nat := min (p.nrCache * p.percentResident / 100) p.nrOrigin % 2 ^ 32

/-- insertion into a `RoaringBitmap`, which is read out in increasing order -/
def insertSorted (x : Nat) : List Nat → List Nat
  | [] => [x]
  | y :: l => if x < y then x :: y :: l else if x = y then y :: l else y :: insertSorted x l

/-- `oblocks` and `total_allocated` -/
structure OSt where
  set : List Nat
  total : Nat

/-- the inner loop, `src/cache/metadata_generator.rs:88-101`, with `n` rounds to go; `true`: `break 'top` -/
def hotRun (p : CacheParams) (ob : Nat) : Nat → Nat → OSt → OSt × Bool
  | 0, _, s => (s, false)
  | n + 1, i, s =>
    if s.total ≥ nrResident p then (s, true)
    else if ob + i ≥ p.nrOrigin then (s, false)
    else if (ob + i) % 2 ^ 32 ∈ s.set then hotRun p ob n (i + 1) s
    else hotRun p ob n (i + 1) ⟨insertSorted ((ob + i) % 2 ^ 32) s.set, s.total + 1⟩

/-- the outer loop, `src/cache/metadata_generator.rs:85-102`; the list is what `gen_range(0..nr_origin_blocks)` returns.  `none`: it has not ended
by then. -/
def pick (p : CacheParams) : List Nat → OSt → Option (List Nat)
  | [], _ => none
  | ob :: draws, s =>
    let r := hotRun p ob p.hotspot 0 s
    if r.2 then some r.1.set else pick p draws r.1

/-- `src/cache/metadata_generator.rs:57-63` -/
def cacheSb (p : CacheParams) : SbIr := { uuid := [], blockSize := p.blockSize, nrCacheBlocks := p.nrCache, policy := [115, 109, 113], hintWidth := 4 }

/-- where `sort_by` and `sort` put an element -/
def insertBy {α : Type} (f : α → Nat) (x : α) : List α → List α
  | [] => [x]
  | y :: l => if f x ≤ f y then x :: y :: l else y :: insertBy f x l

/-- `sort_by` and `sort` of the standard library, `src/cache/metadata_generator.rs:108,123`: by the key `f`.  (Simplified: insertion sort, stable as they are.) -/
def sortBy {α : Type} (f : α → Nat) : List α → List α
  | [] => []
  | x :: l => insertBy f x (sortBy f l)

/-- `maps`, `src/cache/metadata_generator.rs:104-108` -/
def cacheMaps (oblocks cblocks : List Nat) : List (Nat × Nat) := sortBy (·.2) (oblocks.zip cblocks)

/-- `src/cache/metadata_generator.rs:111-118`; `dirty i` is what `gen_ratio` returns for the `i`-th mapping -/
def mapEvents (dirty : Nat → Bool) (maps : List (Nat × Nat)) : List Ev := maps.mapIdx fun i m => .mapping m.2 m.1 (dirty i)

/-- `src/cache/metadata_generator.rs:121-132` -/
def hintEvents (cblocks : List Nat) : List Ev := (sortBy id cblocks).map fun c => .hint c [0, 0, 0, 0]

/-- `generate_metadata`, `src/cache/metadata_generator.rs:52-139`.  `shuffled` is what the shuffle (line 77) makes of the cache blocks.  `none`: a panic of
`gen_range` (no origin blocks) or `gen_ratio` (more than 100 percent), or the loop has not ended. -/
def cacheGen (p : CacheParams) (shuffled draws : List Nat) (dirty : Nat → Bool) : Option (List Ev) :=
  if p.nrOrigin = 0 then none
  else
    let cblocks := shuffled.take (nrResident p)
    match pick p draws ⟨[], 0⟩ with
    | none => none
    | some oblocks =>
      let maps := cacheMaps oblocks cblocks
      if p.percentDirty > 100 ∧ maps ≠ [] then none
      else some ([.superblockB (cacheSb p), .mappingsB] ++ mapEvents dirty maps ++ [.mappingsE, .hintsB] ++ hintEvents cblocks ++
        [.hintsE, .superblockE, .eof])

/-! ## era_generate_metadata -/

/-- the loop of `src/era/metadata_generator.rs:51-53`: `coin k` is what the `k`-th call of `gen_range(0..100)` returns.  The number of calls made, and `b`. -/
def skipTo (coin : Nat → Nat) (prob fin : Nat) : Nat → Nat → Nat → Nat × Nat
  | 0, k, b => (k, b)
  | fuel + 1, k, b => if b < fin then (if coin k ≥ prob then skipTo coin prob fin fuel (k + 1) (b + 1) else (k + 1, b)) else (k, b)

/-- the loop of `src/era/metadata_generator.rs:60-62` -/
def extend (coin : Nat → Nat) (prob fin : Nat) : Nat → Nat → Nat → Nat × Nat
  | 0, k, e => (k, e)
  | fuel + 1, k, e => if e < fin then (if coin k < prob then extend coin prob fin fuel (k + 1) (e + 1) else (k + 1, e)) else (k, e)

/-- `IndependentSequence`, `src/era/metadata_generator.rs:45-66`: all ranges `(begin, length)` from `begin` on; the first argument bounds their number -/
def sequence (coin : Nat → Nat) (prob fin : Nat) : Nat → Nat → Nat → List (Nat × Nat)
  | 0, _, _ => []
  | fuel + 1, k, begin =>
    if begin ≥ fin then []
    else
      let s := skipTo coin prob fin fin k begin
      if s.2 = fin then []
      else
        let t := extend coin prob fin fin s.1 (s.2 + 1)
        (s.2, t.2 - s.2) :: sequence coin prob fin fuel t.1 ((t.2 + 1) % 2 ^ 32)

/-- `CleanShutdownMeta`, `src/era/metadata_generator.rs:80-85` -/
structure EraParams where
  blockSize : Nat
  nrBlocks : Nat
  currentEra : Nat
  nrWritesets : Nat

/-- `era_low`, `src/era/metadata_generator.rs:144` -/
def eraLow (p : EraParams) : Nat := (p.currentEra - p.nrWritesets + 1) % 2 ^ 32

/-- `generate_writeset`, `src/era/metadata_generator.rs:97-110`: every block is in the writeset with a probability of 10 percent -/
def writesetEvents (p : EraParams) (coin : Nat → Nat) (era : Nat) : List EEv :=
  .wsB era p.nrBlocks :: ((sequence coin 10 p.nrBlocks p.nrBlocks 0 0).map (fun r => .blocks r.1 r.2) ++ [.wsE])

/-- `generate_era_array`, `src/era/metadata_generator.rs:112-122` -/
def eraEvents (p : EraParams) (draw : Nat → Nat) : List EEv :=
  .eraB :: ((List.range p.nrBlocks).map (fun b => .era b (draw b)) ++ [.eraE])

/-- `generate_metadata`, `src/era/metadata_generator.rs:125-160`.  `coin e` are the draws for the writeset of era `e`, `draw` those for the era array.
`none`: an error, or the panic of `gen_range(0..0)`. -/
def eraGen (p : EraParams) (coin : Nat → Nat → Nat) (draw : Nat → Nat) : Option (List EEv) :=
  if p.currentEra < 1 then none
  else if p.currentEra < p.nrWritesets then none
  else if eraLow p = 0 ∧ p.nrBlocks ≠ 0 then none
  else
    let hi := (p.currentEra + 1) % 2 ^ 32
    some (.sbB { uuid := [], blockSize := p.blockSize, nrBlocks := p.nrBlocks, currentEra := p.currentEra } ::
      ((List.range' (eraLow p) (hi - eraLow p)).flatMap (fun e => writesetEvents p (coin e) e) ++ eraEvents p draw ++ [.sbE]))

end Verif.Gen
