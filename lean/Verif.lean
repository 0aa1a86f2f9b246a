import Verif.Prop.Records
import Verif.Prop.Checksum
import Verif.Prop.Superblock
import Verif.Prop.Node
import Verif.Prop.SpaceMap
import Verif.Prop.SpaceMapRestricted
import Verif.Prop.Batcher
import Verif.Prop.BTreeRead
import Verif.Prop.Walker
import Verif.Prop.BuilderLeaves
import Verif.Prop.Builder
import Verif.Prop.Gaps
import Verif.Prop.Units
import Verif.Prop.Sizes
import Verif.Prop.DumpRuns
import Verif.Prop.Gatherer
import Verif.Prop.BitScan
import Verif.Prop.Trim
import Verif.Prop.ArrayBuilder
import Verif.Prop.Bitset
import Verif.Prop.ArrayBlock
import Verif.Prop.EraRestore
import Verif.Prop.EraInvalidate
import Verif.Prop.EraLogical
import Verif.Prop.Pack
import Verif.Prop.PackNode
import Verif.Prop.PackTop
import Verif.Prop.ThinRestoreNesting
import Verif.Prop.TreeLeaves
import Verif.Prop.ThinRestore
import Verif.Prop.LeafWalker
import Verif.Prop.ThinDump
import Verif.Prop.Layout
import Verif.Prop.WalkerMemory
import Verif.Prop.Bitmap
import Verif.Prop.SpaceMapDisk
import Verif.Prop.SpaceMapGrow
import Verif.Prop.SpaceMapMeta
import Verif.Prop.SpaceMapAdjust
import Verif.Prop.SpaceMapMetadata
import Verif.Prop.SpaceMapCheck
import Verif.Prop.SpaceMapWritten
import Verif.Prop.Delta
import Verif.Prop.WalkerShared
import Verif.Prop.Rmap
import Verif.Prop.Shrink
import Verif.Prop.ShrinkData
import Verif.Prop.BlockIo
import Verif.Prop.Copier
import Verif.Prop.CopierRun
import Verif.Prop.CopierIo
import Verif.Prop.CopyQueue
import Verif.Prop.Rescue
import Verif.Prop.ArrayMulti
import Verif.Prop.ArrayRead
import Verif.Prop.CacheDump
import Verif.Prop.CacheRestore
import Verif.Prop.CacheRoundTrip
import Verif.Prop.CacheCheck
import Verif.Prop.CacheCheckTool
import Verif.Prop.CacheWritebackOps
import Verif.Prop.CacheWritebackUpdate
import Verif.Prop.CacheWriteback
import Verif.Prop.CacheWritebackTool
import Verif.Model.Repair
import Verif.Prop.Repair
import Verif.Prop.RepairCollect
import Verif.Prop.RepairMeaning
import Verif.Prop.RepairFind
import Verif.Prop.RepairRoots
import Verif.Prop.RepairSb
import Verif.Model.ThinCheck
import Verif.Prop.ThinCheckSum
import Verif.Prop.ThinCheckNodes
import Verif.Prop.ThinCheckCollect
import Verif.Prop.ThinCheckExact
import Verif.Prop.ThinCheckRefuted
import Verif.Model.ThinCheckTool
import Verif.Prop.ThinCheckTool
import Verif.Prop.ThinCheckRefs
import Verif.Prop.ThinCheckPool
import Verif.Prop.ThinCheckPoolDemo
import Verif.Prop.Damage
import Verif.Prop.ThinRestoreData
import Verif.Prop.ThinRestoreCursor
import Verif.Prop.CacheCheckCounts
import Verif.Prop.RepairPartial
import Verif.Prop.ThinCheckSnap
import Verif.Model.NodePath
import Verif.Prop.NodePath
import Verif.Prop.Xml
import Verif.Prop.XmlRestore
import Verif.Prop.TreeMap
import Verif.Prop.ThinRestoreSm
import Verif.Prop.ThinRestoreCheck
import Verif.Prop.ThinRestoreCheckDemo
import Verif.Model.Migrate
import Verif.Prop.Migrate
import Verif.Prop.MigrateDev
import Verif.Prop.EraCheck
import Verif.Prop.EraTool
import Verif.Prop.EraRestoreCheck
import Verif.Prop.EraDump
import Verif.Prop.EraRoundTrip
import Verif.Prop.EraRepair
import Verif.Prop.CacheRepair
import Verif.Prop.ThinRepair
import Verif.Prop.ThinRepairDemo
import Verif.Model.ThinLs
import Verif.Prop.ThinLsCollect
import Verif.Prop.ThinLsLeaves
import Verif.Prop.ThinLsCount
import Verif.Prop.ThinLsShared
import Verif.Prop.ThinLsExact
import Verif.Prop.ThinLsTable
import Verif.Prop.ThinLsTool
import Verif.Prop.ThinLsSound
import Verif.Prop.ThinLsDemo
import Verif.Model.ThinStat
import Verif.Prop.ThinStatRefs
import Verif.Prop.WalkerOnce
import Verif.Prop.ThinStatRuns
import Verif.Prop.ThinStatDemo
import Verif.Prop.ThinStatSound
import Verif.Model.Engines
import Verif.Prop.Engines
import Verif.Model.Generators
import Verif.Prop.GenCache
import Verif.Prop.GenEra
import Verif.Model.Damage
import Verif.Prop.DamageGen
import Verif.Prop.DamageCheck
import Verif.Model.SbEdit
import Verif.Prop.SbEdit
import Verif.Prop.SbEditOps
import Verif.Model.FrontEnd
import Verif.Prop.FrontEnd
import Verif.Prop.RestoreIo
import Verif.Prop.Human
import Verif.Prop.Report
import Verif.Prop.HashVec
import Verif.Prop.RestoreTrace
import Verif.Prop.RestoreImage
import Verif.Prop.RestoreImageDemo
import Verif.Prop.CacheRestoreImage
import Verif.Prop.EraRestoreImage
import Verif.Prop.Cli
import Verif.Prop.CliSize
import Verif.Prop.CopyProgress
import Verif.Prop.TrimTool
import Verif.Prop.TrimToolDemo
import Verif.Prop.WritebackTool
import Verif.Prop.Lcg
import Verif.Prop.Ioctl
import Verif.Prop.WritebackRestored
import Verif.Prop.Ramdisk
