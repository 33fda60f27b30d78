import Verif.Basic
import Verif.Static
import Verif.Tables
import Verif.Runtime
import Verif.Spec
import Verif.SpecRun
import Verif.BasicLemmas
import Verif.SpecBridge
import Verif.StaticLemmas
import Verif.TableLemmas
import Verif.RuntimeLemmas
import Verif.Invariant
import Verif.StateInv
import Verif.Machines
import Verif.RepoTests
import Verif.UnitTests
import Verif.HistLemmas
import Verif.PropsStatic
import Verif.SpecStep
import Verif.StepLemmas
import Verif.EventLemmas
import Verif.RunLemmas
import Verif.Moment
import Verif.Enabled
import Verif.PropsEvent
import Verif.PropsQueue
import Verif.PropsApi
import Verif.LiftLemmas
import Verif.PropsAnon
import Verif.PropsHist
import Verif.PropsTrace
import Verif.PropsGuards
import Verif.Chronicle
import Verif.PropsEntry
import Verif.Complete
import Verif.PropsExact
import Verif.PropsPriority
import Verif.Queue
import Verif.UniquePtr
import Verif.Status
import Verif.Dsl
import Verif.Actions
import Verif.StatesMap
import Verif.Narrow
import Verif.Reentrant
import Verif.PropsReentrant
import Verif.PropsCalls
import Verif.Gen
import Verif.PropsGen
import Verif.PropsReach
import Verif.Alike
import Verif.PropsOrder
import Verif.PropsGrowth
import Verif.PropsTail
import Verif.PropsDead
import Verif.PropsPlain
import Verif.PropsPlay
import Verif.PropsInside
import Verif.PropsCount
import Verif.PropsRename
import Verif.Interp
import Verif.PropsInterp
import Verif.PropsVisit
import Verif.PropsVerdict
import Verif.Checker
import Verif.PropsChecker
import Verif.Moving
import Verif.PropsMoving
import Verif.InterpGen
import Verif.PropsInterpGen
import Verif.PropsGenAll
import Verif.InterpR
import Verif.PropsInterpR
import Verif.PropsHang
import Verif.Match
import Verif.PropsMatch
import Verif.Monitor
import Verif.PropsMonitor
import Verif.Shadow
import Verif.PropsShadow
import Verif.Return
import Verif.PropsReturn
import Verif.Replace
import Verif.PropsReplace
import Verif.Abreast
import Verif.PropsAbreast
import Verif.Headers
import Verif.PropsHeaders
import Verif.Log
import Verif.PropsLog
import Verif.Ledger
import Verif.PropsLedger
import Verif.PropsReachR
import Verif.PropsConsent
import Verif.PropsEnding
import Verif.ReentrantGen
import Verif.InterpGenR
import Verif.PropsInterpGenR
import Verif.PropsHeadersR
import Verif.UpholdsG
import Verif.PropsSafeGenR
import Verif.PropsReachGenR
import Verif.PropsWork
import Verif.PropsEndingGen
import Verif.CheckerGen
import Verif.PropsCheckerGen
import Verif.PropsCheckerDefer
import Verif.MonitorGen
import Verif.PropsMonitorGen
import Verif.ShadowGen
import Verif.PropsShadowGen
import Verif.PropsMovingGen
import Verif.ReplaceGen
import Verif.PropsReplaceGen
import Verif.ReturnGen
import Verif.PropsReturnGen
import Verif.PropsConsentGen
import Verif.MatchR
import Verif.PropsMatchR
import Verif.PropsAlikeR
import Verif.Bench
import Verif.PropsAlikeGenR
import Verif.Sim
import Verif.Systems
import Verif.PropsSystems
import Verif.SystemsGen
import Verif.PropsSystemsGen
import Verif.InterpS
import Verif.PropsInterpS
import Verif.MatchS
import Verif.PropsMatchS
import Verif.PropsAlikeS
import Verif.PropsHeadersS
import Verif.Layers
import Verif.Trail
import Verif.PropsLayers
import Verif.LayersGen
import Verif.PropsLayersGen
import Verif.Clear
import Verif.PropsLayersSafe
import Verif.PropsLayersCheck
import Verif.PropsLayersRules
import Verif.PropsPlacesGenR
import Verif.PropsWaiting
import Verif.PropsRenameR
import Verif.PropsRenameGen
import Verif.PropsParts
import Verif.PropsApart
import Verif.Asking
import Verif.PropsAsking
import Verif.AskingGen
import Verif.PropsAskingGen
import Verif.Helpers
import Verif.Programs
import Verif.Axioms
