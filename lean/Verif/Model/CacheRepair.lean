import Verif.Model.CacheDump
import Verif.Model.CacheRestore

/-!
# `cache_repair` (`src/cache/repair.rs`)

Not modelled: opening the files.  The calls of the dump go to a restorer on the output device; here all calls are made at the end of the dump: if
the repair succeeds, that is the same.
-/

namespace Verif.CacheM

/-- why a repair stops: the superblock or the dump, or the restorer -/
inductive PErr where
  | dump (e : DErr)
  | restore (e : RErr)
  deriving DecidableEq, Repr

/-- `repair`, `src/cache/repair.rs:46-58`; `sb` is what `read_superblock` returned.  The restorer is a new one: its `clean_shutdown` is true
(`src/cache/restore.rs:91`), its version is the version of the input. -/
def repair (cfg : Cfg) (d : Dev) (sb : Option Cache.Superblock) (out : Arr.ASt Nat) : Except PErr RSt :=
  match sb with
  | none => .error (.dump .err)
  | some sb =>
    match dump d sb true with
    | .error e => .error (.dump e)
    | .ok evs =>
      match restore { cfg with version := sb.version % 256 } true evs out with
      | .error e => .error (.restore e)
      | .ok r => .ok r

end Verif.CacheM
