/-!
# Reports: outcome, log levels, progress (`src/report.rs`)

A `Report` is shared by threads; each of its two mutexes protects one field, so a call is one or two atomic steps.  The
text of a message is left open (`T`).  Terminal output is the list of messages printed.
-/

namespace Verif.Rpt

/-- `src/report.rs:60-65` -/
inductive Outcome where
  | success
  | nonFatal
  | fatal
  deriving DecidableEq, Repr

/-- `src/report.rs:69-79`, the arms in their order -/
def combine : Outcome → Outcome → Outcome
  | .success, r => r
  | l, .success => l
  | .fatal, _ => .fatal
  | _, .fatal => .fatal
  | _, _ => .nonFatal

/-- `src/report.rs:11-18`; `as u8` is the number, which also gives the derived order -/
inductive Level where
  | fatal
  | error
  | warning
  | info
  | debug
  deriving DecidableEq, Repr

/-- `src/report.rs:12-17` -/
def Level.num : Level → Nat
  | .fatal => 1
  | .error => 2
  | .warning => 3
  | .info => 4
  | .debug => 5

/-- `TryFrom<u8>`, `src/report.rs:20-33` -/
def ofNum : Nat → Option Level
  | 0 => none
  | 1 => some .fatal
  | 2 => some .error
  | 3 => some .warning
  | 4 => some .info
  | _ => some .debug

/-- `parse_log_level`, `src/report.rs:47-55`: `cnt` is a `u8` (clap's counter stops at 255), the sum wraps in release builds -/
def parseLevel (cnt : Nat) : Option Level := if cnt > 0 then ofNum ((3 + cnt) % 256) else some .warning

/-- which inner report: progress bar and simple print alike, quiet prints nothing (`src/report.rs:200-341`) -/
inductive Inner where
  | loud
  | quiet
  deriving DecidableEq, Repr

/-- `src/report.rs:82-85` with the level of the inner report and what it has printed -/
structure St (T : Type) where
  inner : Inner
  outcome : Outcome
  level : Level
  printed : List T

/-- `Report::new`, `src/report.rs:98-104`, with the level set by the constructors (216-219, 282-287) -/
def St.new (T : Type) (inner : Inner) : St T := ⟨inner, .success, .warning, []⟩

/-- atomic steps: an update of the outcome, a log call, a change of level -/
inductive Step (T : Type) where
  | update (o : Outcome)
  | log (t : T) (l : Level)
  | setLevel (l : Level)

/-- `update_outcome` (`src/report.rs:106-109`), `log` (`src/report.rs:247-251,311-315,337`), `set_level` (238-240,299-301) -/
def St.step {T : Type} (s : St T) : Step T → St T
  | .update o => { s with outcome := combine s.outcome o }
  | .log t l => if s.inner = .loud ∧ l.num ≤ s.level.num then { s with printed := s.printed ++ [t] } else s
  | .setLevel l => { s with level := l }

/-- steps in the order in which the mutexes were taken -/
def St.run {T : Type} (s : St T) (l : List (Step T)) : St T := l.foldl St.step s

/-- the calls of the public API, `src/report.rs:126-154` -/
inductive Call (T : Type) where
  | info (t : T)
  | debug (t : T)
  | warning (t : T)
  | nonFatal (t : T)
  | fatal (t : T)

/-- each call as atomic steps, `src/report.rs:131-154` -/
def Call.steps {T : Type} : Call T → List (Step T)
  | .info t => [.log t .info]
  | .debug t => [.log t .debug]
  | .warning t => [.log t .warning]
  | .nonFatal t => [.update .nonFatal, .log t .error]
  | .fatal t => [.update .fatal, .log t .fatal]

/-- `ProgressMonitor`, `src/report.rs:367-369`: `processed * 100 / total` on 64 bit words, then `as u8`; `none` is the panic
of the division by zero -/
def percent (processed total : Nat) : Option Nat :=
  if total = 0 then none else some ((processed * 100 % 2 ^ 64 / total) % 256)

end Verif.Rpt
