import Verif.Lemmas.Bounds
import Verif.Lemmas.BoundsFrom
import Verif.Lemmas.Cache
import Verif.Lemmas.Cached
import Verif.Lemmas.Catalog
import Verif.Lemmas.Cell
import Verif.Lemmas.Compact
import Verif.Lemmas.CompactCaps
import Verif.Lemmas.CompactCursor
import Verif.Lemmas.CompactFiles
import Verif.Lemmas.CompactLoop
import Verif.Lemmas.CompactLoss
import Verif.Lemmas.CompactOut
import Verif.Lemmas.CompactWeak
import Verif.Lemmas.Conflict
import Verif.Lemmas.Crc
import Verif.Lemmas.DurableAdvance
import Verif.Lemmas.DurableApply
import Verif.Lemmas.DurableClock
import Verif.Lemmas.DurableCrash
import Verif.Lemmas.DurableFlush
import Verif.Lemmas.DurableIds
import Verif.Lemmas.DurableInv
import Verif.Lemmas.DurableLog
import Verif.Lemmas.DurableRows
import Verif.Lemmas.DurableTrace
import Verif.Lemmas.DurableWrite
import Verif.Lemmas.Fence
import Verif.Lemmas.Fleet
import Verif.Lemmas.Float
import Verif.Lemmas.Flush
import Verif.Lemmas.FrameWalk
import Verif.Lemmas.JsonCanon
import Verif.Lemmas.JsonPrint
import Verif.Lemmas.KeyDecl
import Verif.Lemmas.KeyOrder
import Verif.Lemmas.LogImage
import Verif.Lemmas.LogLife
import Verif.Lemmas.LogSession
import Verif.Lemmas.LostLog
import Verif.Lemmas.LsmBase
import Verif.Lemmas.LsmContent
import Verif.Lemmas.LsmFail
import Verif.Lemmas.LsmFailWrites
import Verif.Lemmas.LsmFront
import Verif.Lemmas.LsmInv
import Verif.Lemmas.LsmKeep
import Verif.Lemmas.LsmLevels
import Verif.Lemmas.LsmQuery
import Verif.Lemmas.LsmSnapQuery
import Verif.Lemmas.LsmStep
import Verif.Lemmas.LsmTxnQuery
import Verif.Lemmas.Manifest
import Verif.Lemmas.Mem
import Verif.Lemmas.Merge
import Verif.Lemmas.Meter
import Verif.Lemmas.NumCmp
import Verif.Lemmas.Outcome
import Verif.Lemmas.OverlayScan
import Verif.Lemmas.Package
import Verif.Lemmas.Planner
import Verif.Lemmas.Power
import Verif.Lemmas.PowerAgain
import Verif.Lemmas.PowerLog
import Verif.Lemmas.PowerTxns
import Verif.Lemmas.Pred
import Verif.Lemmas.PredEval
import Verif.Lemmas.ProjMerge
import Verif.Lemmas.ProjPred
import Verif.Lemmas.ProjScan
import Verif.Lemmas.Projection
import Verif.Lemmas.ReadErr
import Verif.Lemmas.ReadMerge
import Verif.Lemmas.Repair
import Verif.Lemmas.RepairPower
import Verif.Lemmas.Replay
import Verif.Lemmas.Runs
import Verif.Lemmas.RunsFail
import Verif.Lemmas.Scan
import Verif.Lemmas.ScanPlan
import Verif.Lemmas.Seal
import Verif.Lemmas.SegName
import Verif.Lemmas.Sidecar
import Verif.Lemmas.SnapRead
import Verif.Lemmas.SstScan
import Verif.Lemmas.Staging
import Verif.Lemmas.Store
import Verif.Lemmas.StoreFiles
import Verif.Lemmas.StoreScan
import Verif.Lemmas.Str
import Verif.Lemmas.Throttle
import Verif.Lemmas.TxnHide
import Verif.Lemmas.TxnInv
import Verif.Lemmas.TxnLock
import Verif.Lemmas.TxnMem
import Verif.Lemmas.TxnStep
import Verif.Lemmas.WalCut
import Verif.Lemmas.WalDepth
import Verif.Lemmas.WalNumbers
import Verif.Lemmas.WalQueue
import Verif.Lemmas.WalRetain
import Verif.Lemmas.WalRules
import Verif.Lemmas.WalScan
import Verif.Lemmas.WalSnap
import Verif.Lemmas.WalStats
import Verif.Lemmas.WalTail
import Verif.Lemmas.WalTimer
import Verif.Lemmas.WalW
import Verif.Lemmas.Worker
import Verif.Lemmas.WorkerEnds
import Verif.Lemmas.WorkerEvents
import Verif.Lemmas.WorkerRest
import Verif.Lemmas.WorkerStats
import Verif.Lemmas.WorkerTick
import Verif.Lemmas.WriteCall
import Verif.Model.Accept
import Verif.Model.Cache
import Verif.Model.Cached
import Verif.Model.Catalog
import Verif.Model.Cell
import Verif.Model.Clock
import Verif.Model.Compact
import Verif.Model.Durable
import Verif.Model.Fence
import Verif.Model.Fingerprint
import Verif.Model.Fleet
import Verif.Model.Flush
import Verif.Model.Frame
import Verif.Model.Guards
import Verif.Model.IngestT
import Verif.Model.KeyBounds
import Verif.Model.KeyDecl
import Verif.Model.KeySer
import Verif.Model.KeyTs
import Verif.Model.LogLife
import Verif.Model.LostLog
import Verif.Model.Lsm
import Verif.Model.LsmFail
import Verif.Model.LsmQuery
import Verif.Model.LsmScan
import Verif.Model.Manifest
import Verif.Model.Memtable
import Verif.Model.MergeStream
import Verif.Model.Meter
import Verif.Model.NumCmp
import Verif.Model.Outcome
import Verif.Model.Package
import Verif.Model.PageIndex
import Verif.Model.Planner
import Verif.Model.Policy
import Verif.Model.Power
import Verif.Model.PowerLog
import Verif.Model.Predicate
import Verif.Model.Projection
import Verif.Model.ReadErr
import Verif.Model.Recovery
import Verif.Model.Repair
import Verif.Model.RepairPower
import Verif.Model.SMap
import Verif.Model.ScanPlan
import Verif.Model.Seal
import Verif.Model.Settings
import Verif.Model.Sidecar
import Verif.Model.SnapQuery
import Verif.Model.SstScan
import Verif.Model.Staging
import Verif.Model.Store
import Verif.Model.Str
import Verif.Model.Throttle
import Verif.Model.TimeTravel
import Verif.Model.Txn
import Verif.Model.TxnQuery
import Verif.Model.WalCut
import Verif.Model.WalEvent
import Verif.Model.WalPrune
import Verif.Model.WalQueue
import Verif.Model.WalSnap
import Verif.Model.WalStats
import Verif.Model.WalStore
import Verif.Model.WalTimer
import Verif.Model.WalWriter
import Verif.Model.Worker
import Verif.Model.WorkerStats
import Verif.Model.WriteCall
import Verif.Props.C01_Clock
import Verif.Props.C02_C04_Memtable
import Verif.Props.C04_Failures
import Verif.Props.C05_C06_Scan
import Verif.Props.C07_C12_Filter
import Verif.Props.C08_Split
import Verif.Props.C09_KeyRange
import Verif.Props.C10_Prefix
import Verif.Props.C11_NumCmp
import Verif.Props.C13_Sst
import Verif.Props.C14_C18_Flush
import Verif.Props.C15_C17_Compact
import Verif.Props.C16_Limit
import Verif.Props.C19_C23_Snapshot
import Verif.Props.C21_C24_Txn
import Verif.Props.C25_C27_Frame
import Verif.Props.C28_Replay
import Verif.Props.C29_C32_Durable
import Verif.Props.C29_C32_Durable_Ex
import Verif.Props.C29_C32_Durable_Neg
import Verif.Props.C31_C33_Writer
import Verif.Props.C34_Numbers
import Verif.Props.C34_Restart
import Verif.Props.C34_Settled
import Verif.Props.C35_SegmentNames
import Verif.Props.C36_C38_Manifest
import Verif.Props.C38_C43_Lsm
import Verif.Props.C39_Planner
import Verif.Props.C39_TaskSize
import Verif.Props.C40_Levels
import Verif.Props.C44_Crashes
import Verif.Props.C44_TimeTravel
import Verif.Props.C45_KeyOrder
import Verif.Props.C46_Batch
import Verif.Props.C47_CommitColumn
import Verif.Props.C48_C49_Guards
import Verif.Props.C50_Cache
import Verif.Props.C51_Catalog
import Verif.Props.C53_Freeze
import Verif.Props.C54_EndToEnd
import Verif.Props.C57_KeyDecl
import Verif.Props.C57_KeyMarks
import Verif.Props.C58_Fingerprint
import Verif.Props.C59_Tables
import Verif.Props.C60_Handles
import Verif.Props.C61_Columns
import Verif.Props.C62_Staging
import Verif.Props.C63_Names
import Verif.Props.C64_Deadlines
import Verif.Props.C65_Worker
import Verif.Props.C66_Batch
import Verif.Props.C66_Queue
import Verif.Props.C67_ReadErrors
import Verif.Props.C68_StorageFailures
import Verif.Props.C69_Limits
import Verif.Props.C70_KeyTypes
import Verif.Props.C71_Answers
import Verif.Props.C71_Refused
import Verif.Props.C72_Settings
import Verif.Props.C73_Crashes
import Verif.Props.C73_FailedWrites
import Verif.Props.C73_Failures
import Verif.Props.C73_Queries
import Verif.Props.C74_Held
import Verif.Props.C74_TxnQueries
import Verif.Props.C75_WorkerEnds
import Verif.Props.C76_Counters
import Verif.Props.C76_Events
import Verif.Props.C77_LogLife
import Verif.Props.C78_LogCounters
import Verif.Props.C79_Accept
import Verif.Props.C80_Deletions
import Verif.Props.C81_PageIndex
import Verif.Props.C82_Throttle
import Verif.Props.C83_Processes
import Verif.Props.C84_Caches
import Verif.Props.C85_Repair
import Verif.Props.C86_Power
import Verif.Props.C87_LostLog
import Verif.Props.C88_PowerLog
import Verif.Props.C89_RepairPower
import Verif.Props.C90_Snapshot
import Verif.Spec.Accept
import Verif.Spec.Bounds
import Verif.Spec.CacheView
import Verif.Spec.CachedView
import Verif.Spec.CalmView
import Verif.Spec.CatalogView
import Verif.Spec.ColumnsView
import Verif.Spec.CompactView
import Verif.Spec.CountView
import Verif.Spec.DurableView
import Verif.Spec.FailView
import Verif.Spec.FailedWrites
import Verif.Spec.FenceView
import Verif.Spec.FleetView
import Verif.Spec.JsonView
import Verif.Spec.Key
import Verif.Spec.KeyDeclView
import Verif.Spec.KeyMarkView
import Verif.Spec.LifeView
import Verif.Spec.LogView
import Verif.Spec.LostLogView
import Verif.Spec.LsmView
import Verif.Spec.ManifestView
import Verif.Spec.MemView
import Verif.Spec.MeterView
import Verif.Spec.Mvcc
import Verif.Spec.Num
import Verif.Spec.OutcomeView
import Verif.Spec.PageIndexView
import Verif.Spec.PlanView
import Verif.Spec.PolicyView
import Verif.Spec.PowerLogView
import Verif.Spec.PowerView
import Verif.Spec.Pred
import Verif.Spec.QueueView
import Verif.Spec.ReadView
import Verif.Spec.RepairPowerView
import Verif.Spec.RepairView
import Verif.Spec.ReplayView
import Verif.Spec.SegView
import Verif.Spec.SettingsView
import Verif.Spec.Settled
import Verif.Spec.Sidecar
import Verif.Spec.SnapView
import Verif.Spec.Split
import Verif.Spec.SstView
import Verif.Spec.StagingView
import Verif.Spec.StatsView
import Verif.Spec.StoreView
import Verif.Spec.TablesView
import Verif.Spec.Tally
import Verif.Spec.ThrottleView
import Verif.Spec.TxnQueryView
import Verif.Spec.TxnView
import Verif.Spec.WalBatchView
import Verif.Spec.WalView
import Verif.Spec.WorkerFair
import Verif.Spec.WorkerView
import Verif.Spec.WriteView
