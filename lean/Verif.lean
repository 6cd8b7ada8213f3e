import Verif.Num
import Verif.Problem
import Verif.Tableau
import Verif.TableauLemmas
import Verif.Solver
import Verif.Bland
import Verif.BlandOpt
import Verif.SolverMain
import Verif.SolverOptMain
import Verif.WeakSolve
import Verif.Prepare
import Verif.PrepareSpec
import Verif.PrepareMain
import Verif.Sem
import Verif.Parsing
import Verif.Decimal
import Verif.ParsingMain
import Verif.ParsingLeft
import Verif.PropsParsing
import Verif.Sys
import Verif.SysSafe
import Verif.SysSpec
import Verif.SysInv
import Verif.SysCheck
import Verif.SysMain
import Verif.SysReach
import Verif.SysSem
import Verif.SysCalls
import Verif.Intact
import Verif.SysWeak
import Verif.Steps
import Verif.PropsAny
import Verif.OptCycle
import Verif.PropsSolving
import Verif.SysStat
import Verif.PropsSession
import Verif.Witness
import Verif.PropsViolations
import Verif.PropsLimits
import Verif.PropsPrepare
import Verif.Data
import Verif.PropsData
import Verif.Api
import Verif.PropsOptions
import Verif.Examples
import Verif.PropsEnd
import Verif.PropsUnmixed
import Verif.PropsGlobal
import Verif.PropsAgree
import Verif.Theory
import Verif.PropsTheory
import Verif.App
import Verif.PropsApp
import Verif.Asserts
import Verif.AssertsMain
import Verif.AssertsInit
import Verif.AssertsSys
import Verif.PropsAsserts
import Verif.Quiet
import Verif.PropsStop
import Verif.PropsExact
import Verif.Conc
import Verif.ConcMain
import Verif.PropsConc
import Verif.PropsAccept
import Verif.Number
import Verif.PropsNumber
import Verif.PropsBackend
import Verif.PropsReadback
import Verif.Handle
import Verif.PropsHandle
import Verif.CondConst
import Verif.PropsExactly
import Verif.Counters
import Verif.PropsStats
import Verif.PropsUnit
import Verif.PropsProgress
import Verif.PropsViolations2
import Verif.PropsSearch
import Verif.PropsReasons
import Verif.PropsPrint
import Verif.Complete
import Verif.QueueDef
import Verif.Memory
import Verif.Queue
import Verif.PropsComplete
import Verif.TableauLow
import Verif.Cramer
import Verif.PropsNumbers
import Verif.NumberQ
import Verif.PropsNumberQ
import Verif.Debug
import Verif.Locks
import Verif.PropsLocks
import Verif.Conformance
import Verif.PropsMemory
import Verif.PropsFail
import Verif.PropsIndex
import Verif.PropsOutput
import Verif.Literals
import Verif.PropsMonotone
import Verif.PropsOrder
import Verif.PropsForeign
import Verif.PropsMore
import Verif.Idle
import Verif.PropsIdle
import Verif.PropsSolutions
