import Verif.Props.Coding
import Verif.Props.Slice
import Verif.Props.Hash
import Verif.Props.Random
import Verif.Props.Logging
import Verif.Props.Status
import Verif.Props.Arena
import Verif.Props.SkipList
import Verif.Props.Cache
import Verif.Props.MemEnv
import Verif.Props.PosixFile
import Verif.Props.PosixEnv
import Verif.Props.PosixRead
import Verif.Props.PosixNs
import Verif.Props.Limiter
import Verif.Props.Schedule
import Verif.Props.PosixLock
import Verif.Props.EnvI
import Verif.Props.EnvUtilMem
import Verif.Props.EnvUtilPosix
import Verif.Props.Replace
import Verif.Props.Startup
import Verif.Props.TestUtil
import Verif.Props.Logger
import Verif.Props.EnvMisc
import Verif.Props.CacheConc
import Verif.Props.MemEnvConc
import Verif.Props.MemReads
import Verif.Props.Sync
import Verif.Props.MemSync
import Verif.Props.ArenaConc
import Verif.Props.SkipThrow
import Verif.Props.LockSync
import Verif.Props.PosixHeld
import Verif.Props.EnvMemCalls
import Verif.Props.EnvPosixCalls
import Verif.Props.Race
import Verif.Props.SkipArena
import Verif.Props.LoggerConc
import Verif.Props.StatusOom
import Verif.Props.CacheOom
import Verif.Props.MemEnvOom
import Verif.Props.SchedOom
import Verif.Props.PosixOom
import Verif.Props.PosixConc
import Verif.Props.PosixSolo
import Verif.Props.PosixReads
import Verif.Props.PosixApart
import Verif.Props.PosixCreate
import Verif.Props.PosixLoad
import Verif.Props.PosixTrip
import Verif.Props.PosixPool
import Verif.Props.PosixInstall
import Verif.Props.PosixFinal
import Verif.Props.PosixNames
import Verif.Props.PosixTerm
import Verif.Props.CacheReent
import Verif.Props.CachePrune
import Verif.Props.PosixPoolRand
import Verif.RepoTests.Util
import Verif.RepoTests.MemEnv
