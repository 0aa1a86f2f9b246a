import Verif.Model.CacheCheck
import Verif.Model.CacheWriteback

/-!
# The command `cache_writeback` (`src/commands/cache_writeback.rs`)

The command checks the metadata with `cache_check` and runs `writeback` only if it passes.  The parsing of the arguments (`src/commands/cache_writeback.rs:97-125`) is that of
`Model/Cli.lean`; messages are not modelled.
-/

namespace Verif.WbTool

open Verif.CacheM (CDev COpts DErr)
open Verif.Wb (Copy Calls Writeback)

/-- how the command ends: exit status 0, 1 and 65, or a crash -/
inductive Code where
  | ok
  | err
  | dataerr
  | crash
  deriving DecidableEq, Repr

/-- `to_exit_code`, `src/commands/utils.rs`, of the result of `writeback` -/
def codeOf : Option DErr → Code
  | none => .ok
  | some .err => .err
  | some .panic => .crash

/-- the options the command gives to the check, `src/commands/cache_writeback.rs:129-140` -/
def checkOpts : COpts := ⟨false, false, false, false, false, false, false⟩

/-- What the command is given: which writes to the metadata work (in the check: `wr`, `sbWr`; in the update: `wok`), whether the metadata can be opened for the
writeback (`mk_context`, `src/cache/writeback.rs:719-720`), the number of retries, whether the offsets are multiples of the page size, and `--no-metadata-update` negated. -/
structure Env where
  wr : Nat → Bool
  sbWr : Bool
  wok : Nat → Bool
  opens : Bool
  retries : Nat
  aligned : Bool
  update : Bool

/-- `run`, `src/commands/cache_writeback.rs:129-170`: the data devices before and after, the end of the command, the metadata device afterwards, and the calls of the copiers.
`epb` is the number of mappings in an array block. -/
inductive Command {σ : Type} (copyV copyS copyR : Copy σ) (unpackRoot : Bytes → Option SMRoot) (epb : Nat) (v : Env) (cd : CDev) :
    σ → σ → Code → CDev → Calls → Prop
  | refused (s : σ) {cd' : CDev} : CacheM.check v.wr v.sbWr checkOpts unpackRoot cd = (cd', some .err) →
      Command copyV copyS copyR unpackRoot epb v cd s s .dataerr cd' []
  | crashed (s : σ) {cd' : CDev} : CacheM.check v.wr v.sbWr checkOpts unpackRoot cd = (cd', some .panic) →
      Command copyV copyS copyR unpackRoot epb v cd s s .crash cd' []
  | closed (s : σ) {cd' : CDev} : CacheM.check v.wr v.sbWr checkOpts unpackRoot cd = (cd', none) → v.opens = false →
      Command copyV copyS copyR unpackRoot epb v cd s s .err cd' []
  | noSb (s : σ) {cd' : CDev} : CacheM.check v.wr v.sbWr checkOpts unpackRoot cd = (cd', none) → v.opens = true → cd'.sb = none →
      Command copyV copyS copyR unpackRoot epb v cd s s .err cd' []
  | ran {s t : σ} {cd' : CDev} {sb : Cache.Superblock} {res : Option DErr} {d' : CacheM.Dev} {tr : Calls} :
      CacheM.check v.wr v.sbWr checkOpts unpackRoot cd = (cd', none) → v.opens = true → cd'.sb = some sb →
      Writeback copyV copyS copyR v.wok cd'.dev sb epb v.retries v.aligned v.update s t (res, d') tr →
      Command copyV copyS copyR unpackRoot epb v cd s t (codeOf res) { cd' with dev := d' } tr

end Verif.WbTool
