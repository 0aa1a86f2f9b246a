import Verif.Model.Superblock

/-!
# Editing a superblock in place (`src/thin/metadata_generator.rs`, `src/thin/damage_generator.rs`, `src/cache/metadata_generator.rs`)

`none`: the tool ends with an error (or a panic), and nothing has been written.
-/

namespace Verif.SbEdit

/-- `src/thin/metadata_generator.rs:38-44` `set_needs_check` -/
def thinSetNeedsCheck (crc : Bytes → UInt32) (d : Disk) (flag : Bool) : Option Disk := do
  let sb ← Thin.readSuperblock crc d 0
  Thin.writeSuperblock crc d { sb with needs_check := flag }

/-- `src/thin/damage_generator.rs:17-21` `SuperblockOverrides` -/
structure Overrides where
  mapping_root : Option Nat
  details_root : Option Nat
  metadata_snapshot : Option Nat

/-- `src/thin/damage_generator.rs:27-37`: the new superblock -/
def overridden (o : Overrides) (sb : Thin.Superblock) : Thin.Superblock :=
  { sb with
    mapping_root := (match o.mapping_root with | some v => v | none => sb.mapping_root)
    details_root := (match o.details_root with | some v => v | none => sb.details_root)
    metadata_snap := (match o.metadata_snapshot with | some v => v | none => sb.metadata_snap) }

/-- `src/thin/damage_generator.rs:23-39` `override_superblock` -/
def overrideSuperblock (crc : Bytes → UInt32) (d : Disk) (o : Overrides) : Option Disk := do
  let sb ← Thin.readSuperblock crc d 0
  Thin.writeSuperblock crc d (overridden o sb)

/-- `src/thin/damage_generator.rs:58-71` `damage_metadata` with the operation `OverrideSuperblock`: the superblock and the root of the metadata space map
are read first. -/
def damageOverride (crc : Bytes → UInt32) (d : Disk) (o : Overrides) : Option Disk := do
  let sb ← Thin.readSuperblock crc d 0
  let _root ← SMRoot.unpack sb.metadata_sm_root
  overrideSuperblock crc d o

/-- `src/cache/metadata_generator.rs:151-157` `set_needs_check` -/
def cacheSetNeedsCheck (crc : Bytes → UInt32) (d : Disk) (flag : Bool) : Option Disk := do
  let sb ← Cache.readSuperblock crc d 0
  Cache.writeSuperblock crc d { sb with needs_check := flag }

/-- `src/cache/metadata_generator.rs:159-165` `set_clean_shutdown` -/
def cacheSetCleanShutdown (crc : Bytes → UInt32) (d : Disk) (flag : Bool) : Option Disk := do
  let sb ← Cache.readSuperblock crc d 0
  Cache.writeSuperblock crc d { sb with clean_shutdown := flag }

/-- `src/cache/metadata_generator.rs:172-178` `set_superblock_version` -/
def cacheSetVersion (crc : Bytes → UInt32) (d : Disk) (version : Nat) : Option Disk := do
  let sb ← Cache.readSuperblock crc d 0
  Cache.writeSuperblock crc d { sb with version := version }

end Verif.SbEdit
