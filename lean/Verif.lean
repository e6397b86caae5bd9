import Verif.Cpp.Basic
import Verif.Cpp.OMap
import Verif.Cpp.Sort
import Verif.Model.BlockIterator
import Verif.Spec.Tuples
import Verif.Lemmas.Odometer
import Verif.Lemmas.BlockInit
import Verif.Lemmas.BlockStep
import Verif.Lemmas.BlockMain
import Verif.Lemmas.BlockVals
import Verif.Lemmas.BlockEnum
import Verif.Props.Block
import Verif.Spec.Field
import Verif.Model.Tables
import Verif.Lemmas.Primitive
import Verif.Lemmas.Tables
import Verif.Lemmas.RepExists
import Verif.Model.Curve
import Verif.Spec.Points
import Verif.Lemmas.Points
import Verif.Lemmas.Count
import Verif.Lemmas.CountMain
import Verif.Lemmas.CurveMisc
import Verif.Props.Tables
import Verif.Spec.Setting
import Verif.Lemmas.Setting
import Verif.Spec.Extension
import Verif.Lemmas.CountAll
import Verif.Lemmas.Embedding
import Verif.Props.Count
import Verif.Model.CurveIterator
import Verif.Lemmas.CurveArgs
import Verif.Lemmas.CurveEnum
import Verif.Lemmas.CurveList
import Verif.Spec.Mass
import Verif.Lemmas.Orbit
import Verif.Lemmas.Mass
import Verif.Lemmas.MassSum
import Verif.Lemmas.MassMain
import Verif.Lemmas.MassLink
import Verif.Props.CurveIterator
import Verif.Model.Ramification
import Verif.Spec.Ramification
import Verif.Lemmas.Roots
import Verif.Lemmas.Ramification
import Verif.Lemmas.RamFactor
import Verif.Lemmas.FlintExists
import Verif.Lemmas.KeyOrder
import Verif.Lemmas.Invariance
import Verif.Model.CurveData
import Verif.Spec.Key
import Verif.Props.Ramification
import Verif.Cpp.Stream
import Verif.Model.Store
import Verif.Spec.Tally
import Verif.Spec.History
import Verif.Lemmas.Stream
import Verif.Lemmas.StoreTally
import Verif.Lemmas.StoreFile
import Verif.Props.Store
import Verif.Model.Files
import Verif.Spec.Directory
import Verif.Lemmas.Directory
import Verif.Props.Files
import Verif.Model.Config
import Verif.Props.Config
import Verif.Model.Single
import Verif.Props.Single
import Verif.Model.Pool
import Verif.Lemmas.PoolStep
import Verif.Lemmas.PoolBook
import Verif.Lemmas.PoolInv
import Verif.Spec.Run
import Verif.Lemmas.PoolLog
import Verif.Lemmas.PoolLive
import Verif.Props.Pool
import Verif.Spec.Resume
import Verif.Lemmas.RunDir
import Verif.Lemmas.RunData
import Verif.Props.Resume
import Verif.Model.Mpi
import Verif.Lemmas.MpiProc
import Verif.Lemmas.MpiStep
import Verif.Lemmas.MpiInv
import Verif.Spec.Mpi
import Verif.Lemmas.MpiData
import Verif.Lemmas.MpiSafe
import Verif.Lemmas.MpiLive
import Verif.Props.Mpi
import Verif.Model.Compute
import Verif.Spec.Census
import Verif.Lemmas.Census
import Verif.Lemmas.Compute
import Verif.Lemmas.ComputeSum
import Verif.Lemmas.RunSafe
import Verif.Lemmas.FlintInput
import Verif.Props.EndToEnd
import Verif.Lemmas.PoolEnds
import Verif.Lemmas.PoolDone
import Verif.Props.Ends
import Verif.Spec.MpiRun
import Verif.Lemmas.MpiAwake
import Verif.Lemmas.MpiRank
import Verif.Lemmas.MpiEnds
import Verif.Lemmas.MpiSched
import Verif.Props.MpiEnds
import Verif.Model.Main
import Verif.Lemmas.Ahead
import Verif.Lemmas.RunStops
import Verif.Spec.Main
import Verif.Props.Main
import Verif.Model.Locks
import Verif.Spec.Locks
import Verif.Lemmas.Locks
import Verif.Lemmas.LocksWhole
import Verif.Lemmas.RunLocks
import Verif.Lemmas.RunRefines
import Verif.Lemmas.RunDrain
import Verif.Props.Locks
import Verif.Model.SingleMain
import Verif.Spec.SingleMain
import Verif.Props.SingleMain
import Verif.Model.MergerMain
import Verif.Spec.MergerMain
import Verif.Props.MergerMain
import Verif.Spec.Conway
import Verif.Lemmas.CensusField
import Verif.Lemmas.Conway
import Verif.Props.Conway
import Verif.Model.OpenCL
import Verif.Spec.OpenCL
import Verif.Lemmas.OpenCL
import Verif.Lemmas.OpenCLSync
import Verif.Lemmas.OpenCLSession
import Verif.Lemmas.OpenCLRace
import Verif.Props.OpenCL
import Verif.Model.OpenCLItems
import Verif.Spec.OpenCLItems
import Verif.Lemmas.OpenCLItems
import Verif.Lemmas.OpenCLItemsSim
import Verif.Lemmas.OpenCLItemsRun
import Verif.Lemmas.OpenCLItemsRace
import Verif.Props.OpenCLItems
import Verif.Model.OpenCLCalls
import Verif.Spec.OpenCLCalls
import Verif.Lemmas.OpenCLCalls
import Verif.Lemmas.OpenCLCallsSession
import Verif.Props.OpenCLCalls
import Verif.Model.MpiLocks
import Verif.Spec.MpiLocks
import Verif.Lemmas.MpiLocks
import Verif.Lemmas.MpiLocksMaster
import Verif.Lemmas.MpiLocksLaws
import Verif.Lemmas.MpiHand
import Verif.Lemmas.LocksDrain
import Verif.Lemmas.LocksSettle
import Verif.Lemmas.MpiLocksRun
import Verif.Lemmas.MpiLocksSettle
import Verif.Lemmas.MpiLocksFollow
import Verif.Props.MpiLocks
import Verif.Lemmas.LocksFair
import Verif.Lemmas.LocksExist
import Verif.Lemmas.LocksOnly
import Verif.Lemmas.Pos
import Verif.Lemmas.MpiWeak
import Verif.Lemmas.MpiLocksFair
import Verif.Lemmas.MpiLocksExist
import Verif.Props.MpiLocksFair
import Verif.Lemmas.RunWeak
import Verif.Lemmas.RunLocksFair
import Verif.Lemmas.RunLocksExist
import Verif.Props.LocksFair
import Verif.Lemmas.LocksHang
import Verif.Lemmas.MpiHang
import Verif.Lemmas.PoolHang
import Verif.Props.LocksHang
import Verif.Props.MpiHang
import Verif.Props.MpiSpins
import Verif.Spec.MpiSends
import Verif.Lemmas.MpiSends
import Verif.Props.MpiSends
import Verif.Lemmas.SquarefreeCount
import Verif.Spec.Totals
import Verif.Lemmas.Totals
import Verif.Props.Totals
import Verif.Model.Memory
import Verif.Spec.Memory
import Verif.Lemmas.Memory
import Verif.Lemmas.MemoryCurve
import Verif.Lemmas.MemoryNaive
import Verif.Props.Memory
import Verif.Model.MergerLive
import Verif.Spec.Live
import Verif.Lemmas.Live
import Verif.Props.Live
import Verif.Spec.Together
import Verif.Lemmas.Together
import Verif.Props.Together
import Verif.Spec.Work
import Verif.Lemmas.Work
import Verif.Lemmas.WorkPackages
import Verif.Lemmas.WorkCount
import Verif.Lemmas.WorkAll
import Verif.Props.Work
import Verif.Spec.Results
import Verif.Lemmas.Results
import Verif.Props.Results
import Verif.Lemmas.Shutdown
import Verif.Lemmas.MpiShutdown
import Verif.Props.Shutdown
import Verif.Model.Devices
import Verif.Spec.Devices
import Verif.Lemmas.Devices
import Verif.Props.Devices
import Verif.Tests.Reference
import Verif.Spec.Related
import Verif.Lemmas.Inversion
import Verif.Lemmas.Related
import Verif.Props.Related
import Verif.Model.Reduction
import Verif.Spec.Reduction
import Verif.Lemmas.Reduction
import Verif.Lemmas.ReductionEnds
import Verif.Props.Reduction
import Verif.Spec.Faults
import Verif.Lemmas.Faults
import Verif.Lemmas.FaultsDir
import Verif.Props.Faults
import Verif.Spec.Damage
import Verif.Lemmas.Damage
import Verif.Lemmas.DamageCount
import Verif.Lemmas.CutBlocks
import Verif.Props.Damage
import Verif.Props.DamageCensus
import Verif.Model.Parallel
import Verif.Spec.Parallel
import Verif.Lemmas.ParallelDir
import Verif.Lemmas.ParallelStep
import Verif.Lemmas.ParallelView
import Verif.Lemmas.ParallelInv
import Verif.Lemmas.ParallelTrans
import Verif.Lemmas.Parallel
import Verif.Lemmas.ParallelSafe
import Verif.Props.Parallel
import Verif.Spec.Series
import Verif.Lemmas.Series
import Verif.Lemmas.MarkedBlocks
import Verif.Props.Series
import Verif.Props.SeriesCensus
import Verif.Model.ReferenceStore
import Verif.Spec.ReferenceStore
import Verif.Lemmas.ReferenceDict
import Verif.Lemmas.ReferenceKey
import Verif.Lemmas.ReferenceCount
import Verif.Lemmas.ReferenceStore
import Verif.Props.ReferenceStore
import Verif.Tests.Script
import Verif.Model.TestPool
import Verif.Lemmas.TestPool
import Verif.Props.TestPool
import Verif.Spec.Range
import Verif.Props.Range
import Verif.Model.SingleTables
import Verif.Spec.SingleTables
import Verif.Props.SingleTables
import Verif.Lemmas.Largest
import Verif.Props.Largest
import Verif.Spec.Attempts
import Verif.Lemmas.Attempts
import Verif.Props.Attempts
import Verif.Props.AttemptsLocks
import Verif.Model.Making
import Verif.Spec.Making
import Verif.Lemmas.Making
import Verif.Props.Making
import Verif.Model.TablesLoop
import Verif.Props.TablesLoop
import Verif.Model.MakingLocks
import Verif.Lemmas.MakingLocks
import Verif.Props.MakingLocks
import Verif.Lemmas.MakingWorkers
import Verif.Props.MakingWorkers
import Verif.Lemmas.Pace
import Verif.Lemmas.MpiPace
import Verif.Props.Pace
import Verif.Props.PaceLocks
import Verif.Props.Idle
import Verif.Props.IdleLocks
import Verif.Props.Messages
import Verif.Props.MessagesLocks
import Verif.Props.FilesBound
