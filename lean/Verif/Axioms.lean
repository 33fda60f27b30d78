import Verif.Basic
import Verif.Static
import Verif.Tables
import Verif.Runtime
import Verif.Spec
import Verif.SpecRun
import Verif.BasicLemmas
import Verif.SpecBridge
import Verif.StaticLemmas
import Verif.TableLemmas
import Verif.RuntimeLemmas
import Verif.Invariant
import Verif.StateInv
import Verif.Machines
import Verif.RepoTests
import Verif.UnitTests
import Verif.HistLemmas
import Verif.PropsStatic
import Verif.SpecStep
import Verif.StepLemmas
import Verif.EventLemmas
import Verif.RunLemmas
import Verif.Moment
import Verif.Enabled
import Verif.PropsEvent
import Verif.PropsQueue
import Verif.PropsApi
import Verif.LiftLemmas
import Verif.PropsAnon
import Verif.PropsHist
import Verif.PropsTrace
import Verif.PropsGuards
import Verif.Chronicle
import Verif.PropsEntry
import Verif.Complete
import Verif.PropsExact
import Verif.PropsPriority
import Verif.Queue
import Verif.UniquePtr
import Verif.Status
import Verif.Dsl
import Verif.Actions
import Verif.StatesMap
import Verif.Narrow
import Verif.Reentrant
import Verif.PropsReentrant
import Verif.PropsCalls
import Verif.Gen
import Verif.PropsGen
import Verif.PropsReach
import Verif.Alike
import Verif.PropsOrder
import Verif.PropsGrowth
import Verif.PropsTail
import Verif.PropsDead
import Verif.PropsPlain
import Verif.PropsPlay
import Verif.PropsInside
import Verif.PropsCount
import Verif.PropsRename
import Verif.Interp
import Verif.PropsInterp
import Verif.PropsVisit
import Verif.PropsVerdict
import Verif.Checker
import Verif.PropsChecker
import Verif.Moving
import Verif.PropsMoving
import Verif.InterpGen
import Verif.PropsInterpGen
import Verif.PropsGenAll
import Verif.InterpR
import Verif.PropsInterpR
import Verif.PropsHang
import Verif.Match
import Verif.PropsMatch
import Verif.Monitor
import Verif.PropsMonitor
import Verif.Shadow
import Verif.PropsShadow
import Verif.Return
import Verif.PropsReturn
import Verif.Replace
import Verif.PropsReplace
import Verif.Abreast
import Verif.PropsAbreast
import Verif.Headers
import Verif.PropsHeaders
import Verif.Log
import Verif.PropsLog
import Verif.Ledger
import Verif.PropsLedger
import Verif.PropsReachR
import Verif.PropsConsent
import Verif.PropsEnding
import Verif.ReentrantGen
import Verif.InterpGenR
import Verif.PropsInterpGenR
import Verif.PropsHeadersR
import Verif.UpholdsG
import Verif.PropsSafeGenR
import Verif.PropsReachGenR
import Verif.PropsWork
import Verif.PropsEndingGen
import Verif.CheckerGen
import Verif.PropsCheckerGen
import Verif.PropsCheckerDefer
import Verif.MonitorGen
import Verif.PropsMonitorGen
import Verif.ShadowGen
import Verif.PropsShadowGen
import Verif.PropsMovingGen
import Verif.ReplaceGen
import Verif.PropsReplaceGen
import Verif.ReturnGen
import Verif.PropsReturnGen
import Verif.PropsConsentGen
import Verif.MatchR
import Verif.PropsMatchR
import Verif.PropsAlikeR
import Verif.Bench
import Verif.PropsAlikeGenR
import Verif.Sim
import Verif.Systems
import Verif.PropsSystems
import Verif.SystemsGen
import Verif.PropsSystemsGen
import Verif.InterpS
import Verif.PropsInterpS
import Verif.MatchS
import Verif.PropsMatchS
import Verif.PropsAlikeS
import Verif.PropsHeadersS
import Verif.Layers
import Verif.Trail
import Verif.PropsLayers
import Verif.LayersGen
import Verif.PropsLayersGen
import Verif.Clear
import Verif.PropsLayersSafe
import Verif.PropsLayersCheck
import Verif.PropsLayersRules
import Verif.PropsPlacesGenR
import Verif.PropsWaiting
import Verif.PropsRenameR
import Verif.PropsRenameGen
import Verif.PropsParts
import Verif.PropsApart
import Verif.Asking
import Verif.PropsAsking
import Verif.AskingGen
import Verif.PropsAskingGen
import Verif.Helpers
import Verif.Programs

/-!
# Axioms

The axioms every theorem named in `MANIFEST.json` depends on.  Generated by
`tools/gen_axioms.py`; `#guard_msgs` makes the build fail if a list changes.
-/

/-- info: 'Hsm.C01_consulted' depends on axioms: [propext, Classical.choice, Quot.sound] -/
#guard_msgs (whitespace := lax) in
#print axioms Hsm.C01_consulted

/-- info: 'Hsm.C01_none_missing' depends on axioms: [propext, Classical.choice, Quot.sound] -/
#guard_msgs (whitespace := lax) in
#print axioms Hsm.C01_none_missing

/-- info: 'Hsm.Machine.C02_encoding' depends on axioms: [propext, Classical.choice, Quot.sound] -/
#guard_msgs (whitespace := lax) in
#print axioms Hsm.Machine.C02_encoding

/-- info: 'Hsm.C03_one_place' depends on axioms: [propext, Classical.choice, Quot.sound] -/
#guard_msgs (whitespace := lax) in
#print axioms Hsm.C03_one_place

/-- info: 'Hsm.C04_set' depends on axioms: [propext, Classical.choice, Quot.sound] -/
#guard_msgs (whitespace := lax) in
#print axioms Hsm.C04_set

/-- info: 'Hsm.C04_set_is' depends on axioms: [propext, Classical.choice, Quot.sound] -/
#guard_msgs (whitespace := lax) in
#print axioms Hsm.C04_set_is

/-- info: 'Hsm.C04_out_of_range' depends on axioms: [propext, Classical.choice, Quot.sound] -/
#guard_msgs (whitespace := lax) in
#print axioms Hsm.C04_out_of_range

/-- info: 'Hsm.C04_slots' depends on axioms: [propext, Quot.sound] -/
#guard_msgs (whitespace := lax) in
#print axioms Hsm.C04_slots

/-- info: 'Hsm.C05_partial' depends on axioms: [propext, Classical.choice, Quot.sound] -/
#guard_msgs (whitespace := lax) in
#print axioms Hsm.C05_partial

/-- info: 'Hsm.C05_refuted' depends on axioms: [propext, Classical.choice, Quot.sound] -/
#guard_msgs (whitespace := lax) in
#print axioms Hsm.C05_refuted

/-- info: 'Hsm.Machine.C06_fill' depends on axioms: [propext, Classical.choice, Quot.sound] -/
#guard_msgs (whitespace := lax) in
#print axioms Hsm.Machine.C06_fill

/-- info: 'Hsm.C06_construct' depends on axioms: [propext, Classical.choice, Quot.sound] -/
#guard_msgs (whitespace := lax) in
#print axioms Hsm.C06_construct

/-- info: 'Hsm.Machine.C06_targets' depends on axioms: [propext, Classical.choice, Quot.sound] -/
#guard_msgs (whitespace := lax) in
#print axioms Hsm.Machine.C06_targets

/-- info: 'Hsm.C07_process' depends on axioms: [propext, Classical.choice, Quot.sound] -/
#guard_msgs (whitespace := lax) in
#print axioms Hsm.C07_process

/-- info: 'Hsm.C07_process_throw' depends on axioms: [propext, Classical.choice, Quot.sound] -/
#guard_msgs (whitespace := lax) in
#print axioms Hsm.C07_process_throw

/-- info: 'Hsm.C07_region' depends on axioms: [propext, Classical.choice, Quot.sound] -/
#guard_msgs (whitespace := lax) in
#print axioms Hsm.C07_region

/-- info: 'Hsm.C07_first' depends on axioms: [propext, Classical.choice, Quot.sound] -/
#guard_msgs (whitespace := lax) in
#print axioms Hsm.C07_first

/-- info: 'Hsm.C08_result' depends on axioms: [propext, Classical.choice, Quot.sound] -/
#guard_msgs (whitespace := lax) in
#print axioms Hsm.C08_result

/-- info: 'Hsm.C09_handler' depends on axioms: [propext, Classical.choice, Quot.sound] -/
#guard_msgs (whitespace := lax) in
#print axioms Hsm.C09_handler

/-- info: 'Hsm.C09_handler_throw' depends on axioms: [propext, Classical.choice, Quot.sound] -/
#guard_msgs (whitespace := lax) in
#print axioms Hsm.C09_handler_throw

/-- info: 'Hsm.C10_untouched' depends on axioms: [propext, Classical.choice, Quot.sound] -/
#guard_msgs (whitespace := lax) in
#print axioms Hsm.C10_untouched

/-- info: 'Hsm.C100_locations' depends on axioms: [propext, Classical.choice, Quot.sound] -/
#guard_msgs (whitespace := lax) in
#print axioms Hsm.C100_locations

/-- info: 'Hsm.C100_callbacks' depends on axioms: [propext, Classical.choice, Quot.sound] -/
#guard_msgs (whitespace := lax) in
#print axioms Hsm.C100_callbacks

/-- info: 'Hsm.C100_closed' depends on axioms: [propext, Classical.choice, Quot.sound] -/
#guard_msgs (whitespace := lax) in
#print axioms Hsm.C100_closed

/-- info: 'Hsm.C101_calls' depends on axioms: [propext, Classical.choice, Quot.sound] -/
#guard_msgs (whitespace := lax) in
#print axioms Hsm.C101_calls

/-- info: 'Hsm.C101_quiet' depends on axioms: [propext, Classical.choice, Quot.sound] -/
#guard_msgs (whitespace := lax) in
#print axioms Hsm.C101_quiet

/-- info: 'Hsm.C101_acyclic' depends on axioms: [propext, Classical.choice, Quot.sound] -/
#guard_msgs (whitespace := lax) in
#print axioms Hsm.C101_acyclic

/-- info: 'Hsm.C101_amalgamated' depends on axioms: [propext, Classical.choice, Quot.sound] -/
#guard_msgs (whitespace := lax) in
#print axioms Hsm.C101_amalgamated

/-- info: 'Hsm.C102_acyclic' depends on axioms: [propext, Classical.choice, Quot.sound] -/
#guard_msgs (whitespace := lax) in
#print axioms Hsm.C102_acyclic

/-- info: 'Hsm.C102_fuel' depends on axioms: [propext, Quot.sound] -/
#guard_msgs (whitespace := lax) in
#print axioms Hsm.C102_fuel

/-- info: 'Hsm.C102_work' depends on axioms: [propext, Classical.choice, Quot.sound] -/
#guard_msgs (whitespace := lax) in
#print axioms Hsm.C102_work

/-- info: 'Hsm.C102_ends' depends on axioms: [propext, Classical.choice, Quot.sound] -/
#guard_msgs (whitespace := lax) in
#print axioms Hsm.C102_ends

/-- info: 'Hsm.C102_bounds' depends on axioms: [propext, Quot.sound] -/
#guard_msgs (whitespace := lax) in
#print axioms Hsm.C102_bounds

/-- info: 'Hsm.Ex.C102_mesh' depends on axioms: [propext, Classical.choice, Quot.sound] -/
#guard_msgs (whitespace := lax) in
#print axioms Hsm.Ex.C102_mesh

/-- info: 'Hsm.Ex.C102_refuted' depends on axioms: [propext, Classical.choice, Quot.sound] -/
#guard_msgs (whitespace := lax) in
#print axioms Hsm.Ex.C102_refuted

/-- info: 'Hsm.Ex.C102_spin' depends on axioms: [propext, Classical.choice, Quot.sound] -/
#guard_msgs (whitespace := lax) in
#print axioms Hsm.Ex.C102_spin

/-- info: 'Hsm.C103_places' depends on axioms: [propext, Classical.choice, Quot.sound] -/
#guard_msgs (whitespace := lax) in
#print axioms Hsm.C103_places

/-- info: 'Hsm.C103_undefined' depends on axioms: [propext, Classical.choice, Quot.sound] -/
#guard_msgs (whitespace := lax) in
#print axioms Hsm.C103_undefined

/-- info: 'Hsm.C103_closed' depends on axioms: [propext, Classical.choice, Quot.sound] -/
#guard_msgs (whitespace := lax) in
#print axioms Hsm.C103_closed

/-- info: 'Hsm.C103_safe' depends on axioms: [propext, Classical.choice, Quot.sound] -/
#guard_msgs (whitespace := lax) in
#print axioms Hsm.C103_safe

/-- info: 'Hsm.C103_defined' depends on axioms: [propext, Classical.choice, Quot.sound] -/
#guard_msgs (whitespace := lax) in
#print axioms Hsm.C103_defined

/-- info: 'Hsm.C103_found' depends on axioms: [propext, Classical.choice, Quot.sound] -/
#guard_msgs (whitespace := lax) in
#print axioms Hsm.C103_found

/-- info: 'Hsm.C103_visited' depends on axioms: [propext, Classical.choice, Quot.sound] -/
#guard_msgs (whitespace := lax) in
#print axioms Hsm.C103_visited

/-- info: 'Hsm.C103_listed' depends on axioms: [propext, Classical.choice, Quot.sound] -/
#guard_msgs (whitespace := lax) in
#print axioms Hsm.C103_listed

/-- info: 'Hsm.C103_exact' depends on axioms: [propext, Classical.choice, Quot.sound] -/
#guard_msgs (whitespace := lax) in
#print axioms Hsm.C103_exact

/-- info: 'Hsm.C103_returns' depends on axioms: [propext, Classical.choice, Quot.sound] -/
#guard_msgs (whitespace := lax) in
#print axioms Hsm.C103_returns

/-- info: 'Hsm.C103_either' depends on axioms: [propext, Classical.choice, Quot.sound] -/
#guard_msgs (whitespace := lax) in
#print axioms Hsm.C103_either

/-- info: 'Hsm.C103_hangs' depends on axioms: [propext, Classical.choice, Quot.sound] -/
#guard_msgs (whitespace := lax) in
#print axioms Hsm.C103_hangs

/-- info: 'Hsm.C103_ends' depends on axioms: [propext, Classical.choice, Quot.sound] -/
#guard_msgs (whitespace := lax) in
#print axioms Hsm.C103_ends

/-- info: 'Hsm.C103_uniform' depends on axioms: [propext, Classical.choice, Quot.sound] -/
#guard_msgs (whitespace := lax) in
#print axioms Hsm.C103_uniform

/-- info: 'Hsm.C103_defer_needed' depends on axioms: [propext, Classical.choice, Quot.sound] -/
#guard_msgs (whitespace := lax) in
#print axioms Hsm.C103_defer_needed

/-- info: 'Hsm.C104_keeps' depends on axioms: [propext, Classical.choice, Quot.sound] -/
#guard_msgs (whitespace := lax) in
#print axioms Hsm.C104_keeps

/-- info: 'Hsm.C104_prefix' depends on axioms: [propext, Classical.choice, Quot.sound] -/
#guard_msgs (whitespace := lax) in
#print axioms Hsm.C104_prefix

/-- info: 'Hsm.C104_broken' depends on axioms: [propext, Classical.choice, Quot.sound] -/
#guard_msgs (whitespace := lax) in
#print axioms Hsm.C104_broken

/-- info: 'Hsm.C104_exact' depends on axioms: [propext, Classical.choice, Quot.sound] -/
#guard_msgs (whitespace := lax) in
#print axioms Hsm.C104_exact

/-- info: 'Hsm.C104_decides' depends on axioms: [propext, Classical.choice, Quot.sound] -/
#guard_msgs (whitespace := lax) in
#print axioms Hsm.C104_decides

/-- info: 'Hsm.C104_found' depends on axioms: [propext, Classical.choice, Quot.sound] -/
#guard_msgs (whitespace := lax) in
#print axioms Hsm.C104_found

/-- info: 'Hsm.C105_refines' depends on axioms: [propext, Classical.choice, Quot.sound] -/
#guard_msgs (whitespace := lax) in
#print axioms Hsm.C105_refines

/-- info: 'Hsm.C105_nowhere' depends on axioms: [propext, Classical.choice, Quot.sound] -/
#guard_msgs (whitespace := lax) in
#print axioms Hsm.C105_nowhere

/-- info: 'Hsm.C105_apart' depends on axioms: [propext, Classical.choice, Quot.sound] -/
#guard_msgs (whitespace := lax) in
#print axioms Hsm.C105_apart

/-- info: 'Hsm.C105_decides' depends on axioms: [propext, Classical.choice, Quot.sound] -/
#guard_msgs (whitespace := lax) in
#print axioms Hsm.C105_decides

/-- info: 'Hsm.C105_found' depends on axioms: [propext, Classical.choice, Quot.sound] -/
#guard_msgs (whitespace := lax) in
#print axioms Hsm.C105_found

/-- info: 'Hsm.C105_either' depends on axioms: [propext, Classical.choice, Quot.sound] -/
#guard_msgs (whitespace := lax) in
#print axioms Hsm.C105_either

/-- info: 'Hsm.C106_same' depends on axioms: [propext, Quot.sound] -/
#guard_msgs (whitespace := lax) in
#print axioms Hsm.C106_same

/-- info: 'Hsm.C106_life' depends on axioms: [propext, Quot.sound] -/
#guard_msgs (whitespace := lax) in
#print axioms Hsm.C106_life

/-- info: 'Hsm.C106_gone' depends on axioms: [propext, Quot.sound] -/
#guard_msgs (whitespace := lax) in
#print axioms Hsm.C106_gone

/-- info: 'Hsm.C106_silent' depends on axioms: [propext, Classical.choice, Quot.sound] -/
#guard_msgs (whitespace := lax) in
#print axioms Hsm.C106_silent

/-- info: 'Hsm.C106_left' depends on axioms: [propext, Classical.choice, Quot.sound] -/
#guard_msgs (whitespace := lax) in
#print axioms Hsm.C106_left

/-- info: 'Hsm.C106_swapped' depends on axioms: [propext, Classical.choice, Quot.sound] -/
#guard_msgs (whitespace := lax) in
#print axioms Hsm.C106_swapped

/-- info: 'Hsm.C106_refilled' depends on axioms: [propext, Classical.choice, Quot.sound] -/
#guard_msgs (whitespace := lax) in
#print axioms Hsm.C106_refilled

/-- info: 'Hsm.Ex.C106_use_after_move' depends on axioms: [propext, Quot.sound] -/
#guard_msgs (whitespace := lax) in
#print axioms Hsm.Ex.C106_use_after_move

/-- info: 'Hsm.C107_replaces' depends on axioms: [propext, Classical.choice, Quot.sound] -/
#guard_msgs (whitespace := lax) in
#print axioms Hsm.C107_replaces

/-- info: 'Hsm.C107_interchangeable' depends on axioms: [propext, Classical.choice, Quot.sound] -/
#guard_msgs (whitespace := lax) in
#print axioms Hsm.C107_interchangeable

/-- info: 'Hsm.C108_determines' depends on axioms: [propext, Classical.choice, Quot.sound] -/
#guard_msgs (whitespace := lax) in
#print axioms Hsm.C108_determines

/-- info: 'Hsm.C108_recovers' depends on axioms: [propext, Classical.choice, Quot.sound] -/
#guard_msgs (whitespace := lax) in
#print axioms Hsm.C108_recovers

/-- info: 'Hsm.C108_stuck' depends on axioms: [propext, Classical.choice, Quot.sound] -/
#guard_msgs (whitespace := lax) in
#print axioms Hsm.C108_stuck

/-- info: 'Hsm.C108_decides' depends on axioms: [propext, Classical.choice, Quot.sound] -/
#guard_msgs (whitespace := lax) in
#print axioms Hsm.C108_decides

/-- info: 'Hsm.C108_found' depends on axioms: [propext, Classical.choice, Quot.sound] -/
#guard_msgs (whitespace := lax) in
#print axioms Hsm.C108_found

/-- info: 'Hsm.Programs.C108_turnstile' depends on axioms: [propext, Classical.choice, Quot.sound] -/
#guard_msgs (whitespace := lax) in
#print axioms Hsm.Programs.C108_turnstile

/-- info: 'Hsm.Programs.C108_cdplayer' depends on axioms: [propext, Classical.choice, Quot.sound] -/
#guard_msgs (whitespace := lax) in
#print axioms Hsm.Programs.C108_cdplayer

/-- info: 'Hsm.C109_moves' depends on axioms: [propext, Classical.choice, Quot.sound] -/
#guard_msgs (whitespace := lax) in
#print axioms Hsm.C109_moves

/-- info: 'Hsm.C109_actions' depends on axioms: [propext, Classical.choice, Quot.sound] -/
#guard_msgs (whitespace := lax) in
#print axioms Hsm.C109_actions

/-- info: 'Hsm.C11_internal' depends on axioms: [propext, Classical.choice, Quot.sound] -/
#guard_msgs (whitespace := lax) in
#print axioms Hsm.C11_internal

/-- info: 'Hsm.C110_declared' depends on axioms: [propext, Classical.choice, Quot.sound] -/
#guard_msgs (whitespace := lax) in
#print axioms Hsm.C110_declared

/-- info: 'Hsm.C110_elsewhere' depends on axioms: [propext, Classical.choice, Quot.sound] -/
#guard_msgs (whitespace := lax) in
#print axioms Hsm.C110_elsewhere

/-- info: 'Hsm.C111_partial' depends on axioms: [propext, Classical.choice, Quot.sound] -/
#guard_msgs (whitespace := lax) in
#print axioms Hsm.C111_partial

/-- info: 'Hsm.C111_refuted' depends on axioms: [propext, Classical.choice, Quot.sound] -/
#guard_msgs (whitespace := lax) in
#print axioms Hsm.C111_refuted

/-- info: 'Hsm.C112_same' depends on axioms: [propext, Classical.choice, Quot.sound] -/
#guard_msgs (whitespace := lax) in
#print axioms Hsm.C112_same

/-- info: 'Hsm.C112_same_states' depends on axioms: [propext, Classical.choice, Quot.sound] -/
#guard_msgs (whitespace := lax) in
#print axioms Hsm.C112_same_states

/-- info: 'Hsm.C112_needed' depends on axioms: [propext, Classical.choice, Quot.sound] -/
#guard_msgs (whitespace := lax) in
#print axioms Hsm.C112_needed

/-- info: 'Hsm.C113_same' depends on axioms: [propext, Classical.choice, Quot.sound] -/
#guard_msgs (whitespace := lax) in
#print axioms Hsm.C113_same

/-- info: 'Hsm.C114_order' depends on axioms: [propext, Classical.choice, Quot.sound] -/
#guard_msgs (whitespace := lax) in
#print axioms Hsm.C114_order

/-- info: 'Hsm.C114_order_back' depends on axioms: [propext, Classical.choice, Quot.sound] -/
#guard_msgs (whitespace := lax) in
#print axioms Hsm.C114_order_back

/-- info: 'Hsm.C114_remove' depends on axioms: [propext, Classical.choice, Quot.sound] -/
#guard_msgs (whitespace := lax) in
#print axioms Hsm.C114_remove

/-- info: 'Hsm.C114_add' depends on axioms: [propext, Classical.choice, Quot.sound] -/
#guard_msgs (whitespace := lax) in
#print axioms Hsm.C114_add

/-- info: 'Hsm.Programs.C115_lap_partial' depends on axioms: [propext, Classical.choice, Quot.sound] -/
#guard_msgs (whitespace := lax) in
#print axioms Hsm.Programs.C115_lap_partial

/-- info: 'Hsm.Programs.C115_variant_partial' depends on axioms: [propext] -/
#guard_msgs (whitespace := lax) in
#print axioms Hsm.Programs.C115_variant_partial

/-- info: 'Hsm.Programs.C115_refuted_switch' depends on axioms: [propext] -/
#guard_msgs (whitespace := lax) in
#print axioms Hsm.Programs.C115_refuted_switch

/-- info: 'Hsm.Programs.C115_refuted_guard' depends on axioms: [propext, Classical.choice, Quot.sound] -/
#guard_msgs (whitespace := lax) in
#print axioms Hsm.Programs.C115_refuted_guard

/-- info: 'Hsm.Programs.C115_refuted_lap' depends on axioms: [propext, Classical.choice, Quot.sound] -/
#guard_msgs (whitespace := lax) in
#print axioms Hsm.Programs.C115_refuted_lap

/-- info: 'Hsm.C116_order' depends on axioms: [propext, Classical.choice, Quot.sound] -/
#guard_msgs (whitespace := lax) in
#print axioms Hsm.C116_order

/-- info: 'Hsm.C116_order_back' depends on axioms: [propext, Classical.choice, Quot.sound] -/
#guard_msgs (whitespace := lax) in
#print axioms Hsm.C116_order_back

/-- info: 'Hsm.C116_remove' depends on axioms: [propext, Classical.choice, Quot.sound] -/
#guard_msgs (whitespace := lax) in
#print axioms Hsm.C116_remove

/-- info: 'Hsm.C116_add' depends on axioms: [propext, Classical.choice, Quot.sound] -/
#guard_msgs (whitespace := lax) in
#print axioms Hsm.C116_add

/-- info: 'Hsm.C116_compete' depends on axioms: [propext, Classical.choice, Quot.sound] -/
#guard_msgs (whitespace := lax) in
#print axioms Hsm.C116_compete

/-- info: 'Hsm.C117_places' depends on axioms: [propext, Classical.choice, Quot.sound] -/
#guard_msgs (whitespace := lax) in
#print axioms Hsm.C117_places

/-- info: 'Hsm.C117_moves' depends on axioms: [propext, Classical.choice, Quot.sound] -/
#guard_msgs (whitespace := lax) in
#print axioms Hsm.C117_moves

/-- info: 'Hsm.C117_actions' depends on axioms: [propext, Classical.choice, Quot.sound] -/
#guard_msgs (whitespace := lax) in
#print axioms Hsm.C117_actions

/-- info: 'Hsm.C117_declared' depends on axioms: [propext, Classical.choice, Quot.sound] -/
#guard_msgs (whitespace := lax) in
#print axioms Hsm.C117_declared

/-- info: 'Hsm.C117_sources' depends on axioms: [propext, Classical.choice, Quot.sound] -/
#guard_msgs (whitespace := lax) in
#print axioms Hsm.C117_sources

/-- info: 'Hsm.C117_only_iterators' depends on axioms: [propext, Classical.choice, Quot.sound] -/
#guard_msgs (whitespace := lax) in
#print axioms Hsm.C117_only_iterators

/-- info: 'Hsm.C117_safe' depends on axioms: [propext, Classical.choice, Quot.sound] -/
#guard_msgs (whitespace := lax) in
#print axioms Hsm.C117_safe

/-- info: 'Hsm.C117_untouched' depends on axioms: [propext, Classical.choice, Quot.sound] -/
#guard_msgs (whitespace := lax) in
#print axioms Hsm.C117_untouched

/-- info: 'Hsm.C117_alone' depends on axioms: [propext, Quot.sound] -/
#guard_msgs (whitespace := lax) in
#print axioms Hsm.C117_alone

/-- info: 'Hsm.C117_round_trip' depends on axioms: [propext, Classical.choice, Quot.sound] -/
#guard_msgs (whitespace := lax) in
#print axioms Hsm.C117_round_trip

/-- info: 'Hsm.C118_moves' depends on axioms: [propext, Classical.choice, Quot.sound] -/
#guard_msgs (whitespace := lax) in
#print axioms Hsm.C118_moves

/-- info: 'Hsm.C118_actions' depends on axioms: [propext, Classical.choice, Quot.sound] -/
#guard_msgs (whitespace := lax) in
#print axioms Hsm.C118_actions

/-- info: 'Hsm.C118_declared' depends on axioms: [propext, Classical.choice, Quot.sound] -/
#guard_msgs (whitespace := lax) in
#print axioms Hsm.C118_declared

/-- info: 'Hsm.C118_sources' depends on axioms: [propext, Classical.choice, Quot.sound] -/
#guard_msgs (whitespace := lax) in
#print axioms Hsm.C118_sources

/-- info: 'Hsm.C118_only_iterators' depends on axioms: [propext, Classical.choice, Quot.sound] -/
#guard_msgs (whitespace := lax) in
#print axioms Hsm.C118_only_iterators

/-- info: 'Hsm.C118_safe' depends on axioms: [propext, Classical.choice, Quot.sound] -/
#guard_msgs (whitespace := lax) in
#print axioms Hsm.C118_safe

/-- info: 'Hsm.C118_untouched' depends on axioms: [propext, Classical.choice, Quot.sound] -/
#guard_msgs (whitespace := lax) in
#print axioms Hsm.C118_untouched

/-- info: 'Hsm.C118_alone' depends on axioms: [propext, Quot.sound] -/
#guard_msgs (whitespace := lax) in
#print axioms Hsm.C118_alone

/-- info: 'Hsm.C118_round_trip' depends on axioms: [propext, Classical.choice, Quot.sound] -/
#guard_msgs (whitespace := lax) in
#print axioms Hsm.C118_round_trip

/-- info: 'Hsm.C119_step' depends on axioms: [propext, Classical.choice, Quot.sound] -/
#guard_msgs (whitespace := lax) in
#print axioms Hsm.C119_step

/-- info: 'Hsm.C119_construct' depends on axioms: [propext, Classical.choice, Quot.sound] -/
#guard_msgs (whitespace := lax) in
#print axioms Hsm.C119_construct

/-- info: 'Hsm.C119_history' depends on axioms: [propext, Classical.choice, Quot.sound] -/
#guard_msgs (whitespace := lax) in
#print axioms Hsm.C119_history

/-- info: 'Hsm.C119_undefined' depends on axioms: [propext, Classical.choice, Quot.sound] -/
#guard_msgs (whitespace := lax) in
#print axioms Hsm.C119_undefined

/-- info: 'Hsm.C119_reach' depends on axioms: [propext, Classical.choice, Quot.sound] -/
#guard_msgs (whitespace := lax) in
#print axioms Hsm.C119_reach

/-- info: 'Hsm.C12_order' depends on axioms: [propext, Classical.choice, Quot.sound] -/
#guard_msgs (whitespace := lax) in
#print axioms Hsm.C12_order

/-- info: 'Hsm.C12_order_throw' depends on axioms: [propext, Classical.choice, Quot.sound] -/
#guard_msgs (whitespace := lax) in
#print axioms Hsm.C12_order_throw

/-- info: 'Hsm.C120_step' depends on axioms: [propext, Classical.choice, Quot.sound] -/
#guard_msgs (whitespace := lax) in
#print axioms Hsm.C120_step

/-- info: 'Hsm.C120_construct' depends on axioms: [propext, Classical.choice, Quot.sound] -/
#guard_msgs (whitespace := lax) in
#print axioms Hsm.C120_construct

/-- info: 'Hsm.C120_history' depends on axioms: [propext, Classical.choice, Quot.sound] -/
#guard_msgs (whitespace := lax) in
#print axioms Hsm.C120_history

/-- info: 'Hsm.C120_undefined' depends on axioms: [propext, Classical.choice, Quot.sound] -/
#guard_msgs (whitespace := lax) in
#print axioms Hsm.C120_undefined

/-- info: 'Hsm.C120_reach' depends on axioms: [propext, Classical.choice, Quot.sound] -/
#guard_msgs (whitespace := lax) in
#print axioms Hsm.C120_reach

/-- info: 'Hsm.C121_same' depends on axioms: [propext, Classical.choice, Quot.sound] -/
#guard_msgs (whitespace := lax) in
#print axioms Hsm.C121_same

/-- info: 'Hsm.C122_same' depends on axioms: [propext, Classical.choice, Quot.sound] -/
#guard_msgs (whitespace := lax) in
#print axioms Hsm.C122_same

/-- info: 'Hsm.C123_tidy' depends on axioms: [propext, Classical.choice, Quot.sound] -/
#guard_msgs (whitespace := lax) in
#print axioms Hsm.C123_tidy

/-- info: 'Hsm.C123_order' depends on axioms: [propext, Classical.choice, Quot.sound] -/
#guard_msgs (whitespace := lax) in
#print axioms Hsm.C123_order

/-- info: 'Hsm.C124_tidy' depends on axioms: [propext, Classical.choice, Quot.sound] -/
#guard_msgs (whitespace := lax) in
#print axioms Hsm.C124_tidy

/-- info: 'Hsm.C124_order' depends on axioms: [propext, Classical.choice, Quot.sound] -/
#guard_msgs (whitespace := lax) in
#print axioms Hsm.C124_order

/-- info: 'Hsm.C125_step' depends on axioms: [propext, Classical.choice, Quot.sound] -/
#guard_msgs (whitespace := lax) in
#print axioms Hsm.C125_step

/-- info: 'Hsm.C125_runs' depends on axioms: [propext, Classical.choice, Quot.sound] -/
#guard_msgs (whitespace := lax) in
#print axioms Hsm.C125_runs

/-- info: 'Hsm.C126_alone' depends on axioms: [propext, Classical.choice, Quot.sound] -/
#guard_msgs (whitespace := lax) in
#print axioms Hsm.C126_alone

/-- info: 'Hsm.C126_step' depends on axioms: [propext, Classical.choice, Quot.sound] -/
#guard_msgs (whitespace := lax) in
#print axioms Hsm.C126_step

/-- info: 'Hsm.C126_others' depends on axioms: [propext] -/
#guard_msgs (whitespace := lax) in
#print axioms Hsm.C126_others

/-- info: 'Hsm.C126_lower' depends on axioms: [propext] -/
#guard_msgs (whitespace := lax) in
#print axioms Hsm.C126_lower

/-- info: 'Hsm.C127_bounds' depends on axioms: [propext, Quot.sound] -/
#guard_msgs (whitespace := lax) in
#print axioms Hsm.C127_bounds

/-- info: 'Hsm.C127_ends' depends on axioms: [propext, Classical.choice, Quot.sound] -/
#guard_msgs (whitespace := lax) in
#print axioms Hsm.C127_ends

/-- info: 'Hsm.C127_acyclic' depends on axioms: [propext, Classical.choice, Quot.sound] -/
#guard_msgs (whitespace := lax) in
#print axioms Hsm.C127_acyclic

/-- info: 'Hsm.C128_alone' depends on axioms: [propext, Classical.choice, Quot.sound] -/
#guard_msgs (whitespace := lax) in
#print axioms Hsm.C128_alone

/-- info: 'Hsm.C128_step' depends on axioms: [propext, Classical.choice, Quot.sound] -/
#guard_msgs (whitespace := lax) in
#print axioms Hsm.C128_step

/-- info: 'Hsm.C128_others' depends on axioms: [propext] -/
#guard_msgs (whitespace := lax) in
#print axioms Hsm.C128_others

/-- info: 'Hsm.C128_lower' depends on axioms: [propext] -/
#guard_msgs (whitespace := lax) in
#print axioms Hsm.C128_lower

/-- info: 'Hsm.C128_bounds' depends on axioms: [propext, Quot.sound] -/
#guard_msgs (whitespace := lax) in
#print axioms Hsm.C128_bounds

/-- info: 'Hsm.C128_ends' depends on axioms: [propext, Classical.choice, Quot.sound] -/
#guard_msgs (whitespace := lax) in
#print axioms Hsm.C128_ends

/-- info: 'Hsm.C128_acyclic' depends on axioms: [propext, Classical.choice, Quot.sound] -/
#guard_msgs (whitespace := lax) in
#print axioms Hsm.C128_acyclic

/-- info: 'Hsm.C129_iterators' depends on axioms: [propext, Classical.choice, Quot.sound] -/
#guard_msgs (whitespace := lax) in
#print axioms Hsm.C129_iterators

/-- info: 'Hsm.C129_safe' depends on axioms: [propext, Classical.choice, Quot.sound] -/
#guard_msgs (whitespace := lax) in
#print axioms Hsm.C129_safe

/-- info: 'Hsm.C129_returns' depends on axioms: [propext, Classical.choice, Quot.sound] -/
#guard_msgs (whitespace := lax) in
#print axioms Hsm.C129_returns

/-- info: 'Hsm.C129_iteratorsG' depends on axioms: [propext, Classical.choice, Quot.sound] -/
#guard_msgs (whitespace := lax) in
#print axioms Hsm.C129_iteratorsG

/-- info: 'Hsm.C129_safeG' depends on axioms: [propext, Classical.choice, Quot.sound] -/
#guard_msgs (whitespace := lax) in
#print axioms Hsm.C129_safeG

/-- info: 'Hsm.C129_returnsG' depends on axioms: [propext, Classical.choice, Quot.sound] -/
#guard_msgs (whitespace := lax) in
#print axioms Hsm.C129_returnsG

/-- info: 'Hsm.C13_action_throw' depends on axioms: [propext, Classical.choice, Quot.sound] -/
#guard_msgs (whitespace := lax) in
#print axioms Hsm.C13_action_throw

/-- info: 'Hsm.C13_stops' depends on axioms: [propext, Classical.choice, Quot.sound] -/
#guard_msgs (whitespace := lax) in
#print axioms Hsm.C13_stops

/-- info: 'Hsm.C130_alone' depends on axioms: [propext, Classical.choice, Quot.sound] -/
#guard_msgs (whitespace := lax) in
#print axioms Hsm.C130_alone

/-- info: 'Hsm.C130_places' depends on axioms: [propext, Classical.choice, Quot.sound] -/
#guard_msgs (whitespace := lax) in
#print axioms Hsm.C130_places

/-- info: 'Hsm.C130_defined' depends on axioms: [propext, Classical.choice, Quot.sound] -/
#guard_msgs (whitespace := lax) in
#print axioms Hsm.C130_defined

/-- info: 'Hsm.C130_ends' depends on axioms: [propext, Classical.choice, Quot.sound] -/
#guard_msgs (whitespace := lax) in
#print axioms Hsm.C130_ends

/-- info: 'Hsm.C130_placesG' depends on axioms: [propext, Classical.choice, Quot.sound] -/
#guard_msgs (whitespace := lax) in
#print axioms Hsm.C130_placesG

/-- info: 'Hsm.C130_definedG' depends on axioms: [propext, Classical.choice, Quot.sound] -/
#guard_msgs (whitespace := lax) in
#print axioms Hsm.C130_definedG

/-- info: 'Hsm.C130_endsG' depends on axioms: [propext, Classical.choice, Quot.sound] -/
#guard_msgs (whitespace := lax) in
#print axioms Hsm.C130_endsG

/-- info: 'Hsm.C131_keeps' depends on axioms: [propext, Classical.choice, Quot.sound] -/
#guard_msgs (whitespace := lax) in
#print axioms Hsm.C131_keeps

/-- info: 'Hsm.C131_record' depends on axioms: [propext, Classical.choice, Quot.sound] -/
#guard_msgs (whitespace := lax) in
#print axioms Hsm.C131_record

/-- info: 'Hsm.C131_keepsG' depends on axioms: [propext, Classical.choice, Quot.sound] -/
#guard_msgs (whitespace := lax) in
#print axioms Hsm.C131_keepsG

/-- info: 'Hsm.C131_recordG' depends on axioms: [propext, Classical.choice, Quot.sound] -/
#guard_msgs (whitespace := lax) in
#print axioms Hsm.C131_recordG

/-- info: 'Hsm.Programs.C131_turnstile' depends on axioms: [propext, Classical.choice, Quot.sound] -/
#guard_msgs (whitespace := lax) in
#print axioms Hsm.Programs.C131_turnstile

/-- info: 'Hsm.Programs.C131_turnstileG' depends on axioms: [propext, Classical.choice, Quot.sound] -/
#guard_msgs (whitespace := lax) in
#print axioms Hsm.Programs.C131_turnstileG

/-- info: 'Hsm.C132_places' depends on axioms: [propext, Classical.choice, Quot.sound] -/
#guard_msgs (whitespace := lax) in
#print axioms Hsm.C132_places

/-- info: 'Hsm.C132_several' depends on axioms: [propext, Classical.choice, Quot.sound] -/
#guard_msgs (whitespace := lax) in
#print axioms Hsm.C132_several

/-- info: 'Hsm.C133_waits' depends on axioms: [propext, Classical.choice, Quot.sound] -/
#guard_msgs (whitespace := lax) in
#print axioms Hsm.C133_waits

/-- info: 'Hsm.C133_waitsG' depends on axioms: [propext, Classical.choice, Quot.sound] -/
#guard_msgs (whitespace := lax) in
#print axioms Hsm.C133_waitsG

/-- info: 'Hsm.C133_rivals' depends on axioms: [propext, Classical.choice, Quot.sound] -/
#guard_msgs (whitespace := lax) in
#print axioms Hsm.C133_rivals

/-- info: 'Hsm.C133_rivalsG' depends on axioms: [propext, Classical.choice, Quot.sound] -/
#guard_msgs (whitespace := lax) in
#print axioms Hsm.C133_rivalsG

/-- info: 'Hsm.C134_step' depends on axioms: [propext, Quot.sound] -/
#guard_msgs (whitespace := lax) in
#print axioms Hsm.C134_step

/-- info: 'Hsm.C134_runs' depends on axioms: [propext, Classical.choice, Quot.sound] -/
#guard_msgs (whitespace := lax) in
#print axioms Hsm.C134_runs

/-- info: 'Hsm.C134_observe' depends on axioms: [propext, Quot.sound] -/
#guard_msgs (whitespace := lax) in
#print axioms Hsm.C134_observe

/-- info: 'Hsm.SemS.rename_renamed' depends on axioms: [propext] -/
#guard_msgs (whitespace := lax) in
#print axioms Hsm.SemS.rename_renamed

/-- info: 'Hsm.C134_refuted_old_names' depends on axioms: [propext, Quot.sound] -/
#guard_msgs (whitespace := lax) in
#print axioms Hsm.C134_refuted_old_names

/-- info: 'Hsm.Renamed.C135_construct' depends on axioms: [propext, Quot.sound] -/
#guard_msgs (whitespace := lax) in
#print axioms Hsm.Renamed.C135_construct

/-- info: 'Hsm.C135_step' depends on axioms: [propext, Quot.sound] -/
#guard_msgs (whitespace := lax) in
#print axioms Hsm.C135_step

/-- info: 'Hsm.C135_runs' depends on axioms: [propext, Classical.choice, Quot.sound] -/
#guard_msgs (whitespace := lax) in
#print axioms Hsm.C135_runs

/-- info: 'Hsm.C135_refuted_old_names' depends on axioms: [propext, Quot.sound] -/
#guard_msgs (whitespace := lax) in
#print axioms Hsm.C135_refuted_old_names

/-- info: 'Hsm.C136_step' depends on axioms: [propext] -/
#guard_msgs (whitespace := lax) in
#print axioms Hsm.C136_step

/-- info: 'Hsm.C136_stepG' depends on axioms: [propext] -/
#guard_msgs (whitespace := lax) in
#print axioms Hsm.C136_stepG

/-- info: 'Hsm.C136_runs' depends on axioms: [propext] -/
#guard_msgs (whitespace := lax) in
#print axioms Hsm.C136_runs

/-- info: 'Hsm.C136_runsG' depends on axioms: [propext] -/
#guard_msgs (whitespace := lax) in
#print axioms Hsm.C136_runsG

/-- info: 'Hsm.C136_beside' depends on axioms: [propext] -/
#guard_msgs (whitespace := lax) in
#print axioms Hsm.C136_beside

/-- info: 'Hsm.C136_besideG' depends on axioms: [propext] -/
#guard_msgs (whitespace := lax) in
#print axioms Hsm.C136_besideG

/-- info: 'Hsm.C136_within' depends on axioms: [propext, Classical.choice, Quot.sound] -/
#guard_msgs (whitespace := lax) in
#print axioms Hsm.C136_within

/-- info: 'Hsm.C136_withinG' depends on axioms: [propext, Classical.choice, Quot.sound] -/
#guard_msgs (whitespace := lax) in
#print axioms Hsm.C136_withinG

/-- info: 'Hsm.C136_answers' depends on axioms: [propext, Classical.choice, Quot.sound] -/
#guard_msgs (whitespace := lax) in
#print axioms Hsm.C136_answers

/-- info: 'Hsm.C136_answersG' depends on axioms: [propext, Classical.choice, Quot.sound] -/
#guard_msgs (whitespace := lax) in
#print axioms Hsm.C136_answersG

/-- info: 'Hsm.C136_safe' depends on axioms: [propext, Classical.choice, Quot.sound] -/
#guard_msgs (whitespace := lax) in
#print axioms Hsm.C136_safe

/-- info: 'Hsm.C136_safeG' depends on axioms: [propext, Classical.choice, Quot.sound] -/
#guard_msgs (whitespace := lax) in
#print axioms Hsm.C136_safeG

/-- info: 'Hsm.C136_refuted_called' depends on axioms: [propext, Quot.sound] -/
#guard_msgs (whitespace := lax) in
#print axioms Hsm.C136_refuted_called

/-- info: 'Hsm.C137_commute' depends on axioms: [propext, Classical.choice, Quot.sound] -/
#guard_msgs (whitespace := lax) in
#print axioms Hsm.C137_commute

/-- info: 'Hsm.C137_commuteG' depends on axioms: [propext, Classical.choice, Quot.sound] -/
#guard_msgs (whitespace := lax) in
#print axioms Hsm.C137_commuteG

/-- info: 'Hsm.C137_order' depends on axioms: [propext, Quot.sound] -/
#guard_msgs (whitespace := lax) in
#print axioms Hsm.C137_order

/-- info: 'Hsm.C137_orderG' depends on axioms: [propext, Quot.sound] -/
#guard_msgs (whitespace := lax) in
#print axioms Hsm.C137_orderG

/-- info: 'Hsm.C137_replace' depends on axioms: [propext] -/
#guard_msgs (whitespace := lax) in
#print axioms Hsm.C137_replace

/-- info: 'Hsm.C137_replaceG' depends on axioms: [propext] -/
#guard_msgs (whitespace := lax) in
#print axioms Hsm.C137_replaceG

/-- info: 'Hsm.C137_refuted_shared' depends on axioms: [propext] -/
#guard_msgs (whitespace := lax) in
#print axioms Hsm.C137_refuted_shared

/-- info: 'Hsm.C138_question' depends on axioms: [propext] -/
#guard_msgs (whitespace := lax) in
#print axioms Hsm.C138_question

/-- info: 'Hsm.C138_ask' depends on axioms: [propext, Quot.sound] -/
#guard_msgs (whitespace := lax) in
#print axioms Hsm.C138_ask

/-- info: 'Hsm.C138_answer' depends on axioms: [propext, Classical.choice, Quot.sound] -/
#guard_msgs (whitespace := lax) in
#print axioms Hsm.C138_answer

/-- info: 'Hsm.C138_status' depends on axioms: [propext] -/
#guard_msgs (whitespace := lax) in
#print axioms Hsm.C138_status

/-- info: 'Hsm.C138_region' depends on axioms: [propext, Classical.choice, Quot.sound] -/
#guard_msgs (whitespace := lax) in
#print axioms Hsm.C138_region

/-- info: 'Hsm.C138_places' depends on axioms: [propext, Classical.choice, Quot.sound] -/
#guard_msgs (whitespace := lax) in
#print axioms Hsm.C138_places

/-- info: 'Hsm.C138_moves' depends on axioms: [propext, Classical.choice, Quot.sound] -/
#guard_msgs (whitespace := lax) in
#print axioms Hsm.C138_moves

/-- info: 'Hsm.C138_actions' depends on axioms: [propext, Classical.choice, Quot.sound] -/
#guard_msgs (whitespace := lax) in
#print axioms Hsm.C138_actions

/-- info: 'Hsm.C138_sources' depends on axioms: [propext, Classical.choice, Quot.sound] -/
#guard_msgs (whitespace := lax) in
#print axioms Hsm.C138_sources

/-- info: 'Hsm.C138_only_iterators' depends on axioms: [propext, Classical.choice, Quot.sound] -/
#guard_msgs (whitespace := lax) in
#print axioms Hsm.C138_only_iterators

/-- info: 'Hsm.C138_safe' depends on axioms: [propext, Classical.choice, Quot.sound] -/
#guard_msgs (whitespace := lax) in
#print axioms Hsm.C138_safe

/-- info: 'Hsm.C138_declared' depends on axioms: [propext, Classical.choice, Quot.sound] -/
#guard_msgs (whitespace := lax) in
#print axioms Hsm.C138_declared

/-- info: 'Hsm.C138_untouched' depends on axioms: [propext, Classical.choice, Quot.sound] -/
#guard_msgs (whitespace := lax) in
#print axioms Hsm.C138_untouched

/-- info: 'Hsm.C138_conservative' depends on axioms: [propext, Quot.sound] -/
#guard_msgs (whitespace := lax) in
#print axioms Hsm.C138_conservative

/-- info: 'Hsm.C139_question' depends on axioms: [propext] -/
#guard_msgs (whitespace := lax) in
#print axioms Hsm.C139_question

/-- info: 'Hsm.C139_ask' depends on axioms: [propext, Quot.sound] -/
#guard_msgs (whitespace := lax) in
#print axioms Hsm.C139_ask

/-- info: 'Hsm.C139_answer' depends on axioms: [propext, Classical.choice, Quot.sound] -/
#guard_msgs (whitespace := lax) in
#print axioms Hsm.C139_answer

/-- info: 'Hsm.C139_status' depends on axioms: [propext] -/
#guard_msgs (whitespace := lax) in
#print axioms Hsm.C139_status

/-- info: 'Hsm.C139_region' depends on axioms: [propext, Classical.choice, Quot.sound] -/
#guard_msgs (whitespace := lax) in
#print axioms Hsm.C139_region

/-- info: 'Hsm.C139_places' depends on axioms: [propext, Classical.choice, Quot.sound] -/
#guard_msgs (whitespace := lax) in
#print axioms Hsm.C139_places

/-- info: 'Hsm.C139_moves' depends on axioms: [propext, Classical.choice, Quot.sound] -/
#guard_msgs (whitespace := lax) in
#print axioms Hsm.C139_moves

/-- info: 'Hsm.C139_actions' depends on axioms: [propext, Classical.choice, Quot.sound] -/
#guard_msgs (whitespace := lax) in
#print axioms Hsm.C139_actions

/-- info: 'Hsm.C139_sources' depends on axioms: [propext, Classical.choice, Quot.sound] -/
#guard_msgs (whitespace := lax) in
#print axioms Hsm.C139_sources

/-- info: 'Hsm.C139_only_iterators' depends on axioms: [propext, Classical.choice, Quot.sound] -/
#guard_msgs (whitespace := lax) in
#print axioms Hsm.C139_only_iterators

/-- info: 'Hsm.C139_safe' depends on axioms: [propext, Classical.choice, Quot.sound] -/
#guard_msgs (whitespace := lax) in
#print axioms Hsm.C139_safe

/-- info: 'Hsm.C139_declared' depends on axioms: [propext, Classical.choice, Quot.sound] -/
#guard_msgs (whitespace := lax) in
#print axioms Hsm.C139_declared

/-- info: 'Hsm.C139_untouched' depends on axioms: [propext, Classical.choice, Quot.sound] -/
#guard_msgs (whitespace := lax) in
#print axioms Hsm.C139_untouched

/-- info: 'Hsm.C139_conservative' depends on axioms: [propext, Quot.sound] -/
#guard_msgs (whitespace := lax) in
#print axioms Hsm.C139_conservative

/-- info: 'Hsm.C14_guard_throw' depends on axioms: [propext, Classical.choice, Quot.sound] -/
#guard_msgs (whitespace := lax) in
#print axioms Hsm.C14_guard_throw

/-- info: 'Hsm.C15_regions' depends on axioms: [propext, Classical.choice, Quot.sound] -/
#guard_msgs (whitespace := lax) in
#print axioms Hsm.C15_regions

/-- info: 'Hsm.C16_composite_row' depends on axioms: [propext, Classical.choice, Quot.sound] -/
#guard_msgs (whitespace := lax) in
#print axioms Hsm.C16_composite_row

/-- info: 'Hsm.C17_partial' depends on axioms: [propext, Classical.choice, Quot.sound] -/
#guard_msgs (whitespace := lax) in
#print axioms Hsm.C17_partial

/-- info: 'Hsm.C17_refuted' depends on axioms: [propext, Classical.choice, Quot.sound] -/
#guard_msgs (whitespace := lax) in
#print axioms Hsm.C17_refuted

/-- info: 'Hsm.Machine.C17_exact' depends on axioms: [propext, Classical.choice, Quot.sound] -/
#guard_msgs (whitespace := lax) in
#print axioms Hsm.Machine.C17_exact

/-- info: 'Hsm.C18_defer' depends on axioms: [propext, Classical.choice, Quot.sound] -/
#guard_msgs (whitespace := lax) in
#print axioms Hsm.C18_defer

/-- info: 'Hsm.C19_queue' depends on axioms: [propext, Classical.choice, Quot.sound] -/
#guard_msgs (whitespace := lax) in
#print axioms Hsm.C19_queue

/-- info: 'Hsm.C20_replays' depends on axioms: [propext, Classical.choice, Quot.sound] -/
#guard_msgs (whitespace := lax) in
#print axioms Hsm.C20_replays

/-- info: 'Hsm.C20_waits' depends on axioms: [propext, Classical.choice, Quot.sound] -/
#guard_msgs (whitespace := lax) in
#print axioms Hsm.C20_waits

/-- info: 'Hsm.C20_bounded' depends on axioms: [propext, Classical.choice, Quot.sound] -/
#guard_msgs (whitespace := lax) in
#print axioms Hsm.C20_bounded

/-- info: 'Hsm.C21_partial' depends on axioms: [propext, Classical.choice, Quot.sound] -/
#guard_msgs (whitespace := lax) in
#print axioms Hsm.C21_partial

/-- info: 'Hsm.C21_refuted' depends on axioms: [propext, Classical.choice, Quot.sound] -/
#guard_msgs (whitespace := lax) in
#print axioms Hsm.C21_refuted

/-- info: 'Hsm.C22_partial' depends on axioms: [propext, Classical.choice, Quot.sound] -/
#guard_msgs (whitespace := lax) in
#print axioms Hsm.C22_partial

/-- info: 'Hsm.C22_refuted' depends on axioms: [propext, Classical.choice, Quot.sound] -/
#guard_msgs (whitespace := lax) in
#print axioms Hsm.C22_refuted

/-- info: 'Hsm.C23_partial' depends on axioms: [propext, Classical.choice, Quot.sound] -/
#guard_msgs (whitespace := lax) in
#print axioms Hsm.C23_partial

/-- info: 'Hsm.C23_refuted' depends on axioms: [propext, Classical.choice, Quot.sound] -/
#guard_msgs (whitespace := lax) in
#print axioms Hsm.C23_refuted

/-- info: 'Hsm.C24_terminates' depends on axioms: [propext, Classical.choice, Quot.sound] -/
#guard_msgs (whitespace := lax) in
#print axioms Hsm.C24_terminates

/-- info: 'Hsm.C24_diverges' depends on axioms: [propext, Classical.choice, Quot.sound] -/
#guard_msgs (whitespace := lax) in
#print axioms Hsm.C24_diverges

/-- info: 'Hsm.C25_history' depends on axioms: [propext, Classical.choice, Quot.sound] -/
#guard_msgs (whitespace := lax) in
#print axioms Hsm.C25_history

/-- info: 'Hsm.C26_partial' depends on axioms: [propext, Classical.choice, Quot.sound] -/
#guard_msgs (whitespace := lax) in
#print axioms Hsm.C26_partial

/-- info: 'Hsm.C26_exact' depends on axioms: [propext, Classical.choice, Quot.sound] -/
#guard_msgs (whitespace := lax) in
#print axioms Hsm.C26_exact

/-- info: 'Hsm.C26_refuted' depends on axioms: [propext, Classical.choice, Quot.sound] -/
#guard_msgs (whitespace := lax) in
#print axioms Hsm.C26_refuted

/-- info: 'Hsm.C27_partial' depends on axioms: [propext, Classical.choice, Quot.sound] -/
#guard_msgs (whitespace := lax) in
#print axioms Hsm.C27_partial

/-- info: 'Hsm.C27_refuted' depends on axioms: [propext, Classical.choice, Quot.sound] -/
#guard_msgs (whitespace := lax) in
#print axioms Hsm.C27_refuted

/-- info: 'Hsm.C28_constant' depends on axioms: [propext, Classical.choice, Quot.sound] -/
#guard_msgs (whitespace := lax) in
#print axioms Hsm.C28_constant

/-- info: 'Hsm.C28_first' depends on axioms: [propext, Classical.choice, Quot.sound] -/
#guard_msgs (whitespace := lax) in
#print axioms Hsm.C28_first

/-- info: 'Hsm.C28_region' depends on axioms: [propext, Classical.choice, Quot.sound] -/
#guard_msgs (whitespace := lax) in
#print axioms Hsm.C28_region

/-- info: 'Hsm.C29_partial' depends on axioms: [propext, Classical.choice, Quot.sound] -/
#guard_msgs (whitespace := lax) in
#print axioms Hsm.C29_partial

/-- info: 'Hsm.C29_history_partial' depends on axioms: [propext, Classical.choice, Quot.sound] -/
#guard_msgs (whitespace := lax) in
#print axioms Hsm.C29_history_partial

/-- info: 'Hsm.C29_refuted' depends on axioms: [propext, Classical.choice, Quot.sound] -/
#guard_msgs (whitespace := lax) in
#print axioms Hsm.C29_refuted

/-- info: 'Hsm.C30_partial' depends on axioms: [propext, Classical.choice, Quot.sound] -/
#guard_msgs (whitespace := lax) in
#print axioms Hsm.C30_partial

/-- info: 'Hsm.C30_history_partial' depends on axioms: [propext, Classical.choice, Quot.sound] -/
#guard_msgs (whitespace := lax) in
#print axioms Hsm.C30_history_partial

/-- info: 'Hsm.C30_refuted' depends on axioms: [propext, Classical.choice, Quot.sound] -/
#guard_msgs (whitespace := lax) in
#print axioms Hsm.C30_refuted

/-- info: 'Hsm.Machine.C31_rows_in_force' depends on axioms: [propext, Classical.choice, Quot.sound] -/
#guard_msgs (whitespace := lax) in
#print axioms Hsm.Machine.C31_rows_in_force

/-- info: 'Hsm.Machine.C31_order' depends on axioms: [propext, Quot.sound] -/
#guard_msgs (whitespace := lax) in
#print axioms Hsm.Machine.C31_order

/-- info: 'Hsm.Machine.C31_collected' depends on axioms: [propext, Quot.sound] -/
#guard_msgs (whitespace := lax) in
#print axioms Hsm.Machine.C31_collected

/-- info: 'Hsm.C32_composite' depends on axioms: [propext, Classical.choice, Quot.sound] -/
#guard_msgs (whitespace := lax) in
#print axioms Hsm.C32_composite

/-- info: 'Hsm.C32_simple' depends on axioms: [propext, Classical.choice, Quot.sound] -/
#guard_msgs (whitespace := lax) in
#print axioms Hsm.C32_simple

/-- info: 'Hsm.C32_only' depends on axioms: [propext, Classical.choice, Quot.sound] -/
#guard_msgs (whitespace := lax) in
#print axioms Hsm.C32_only

/-- info: 'Hsm.C33_partial' depends on axioms: [propext, Classical.choice, Quot.sound] -/
#guard_msgs (whitespace := lax) in
#print axioms Hsm.C33_partial

/-- info: 'Hsm.C33_history_partial' depends on axioms: [propext, Classical.choice, Quot.sound] -/
#guard_msgs (whitespace := lax) in
#print axioms Hsm.C33_history_partial

/-- info: 'Hsm.C33_refuted' depends on axioms: [propext, Classical.choice, Quot.sound] -/
#guard_msgs (whitespace := lax) in
#print axioms Hsm.C33_refuted

/-- info: 'Hsm.C34_event' depends on axioms: [propext, Classical.choice, Quot.sound] -/
#guard_msgs (whitespace := lax) in
#print axioms Hsm.C34_event

/-- info: 'Hsm.C34_regions' depends on axioms: [propext, Classical.choice, Quot.sound] -/
#guard_msgs (whitespace := lax) in
#print axioms Hsm.C34_regions

/-- info: 'Hsm.C35_fifo' depends on axioms: [propext, Classical.choice, Quot.sound] -/
#guard_msgs (whitespace := lax) in
#print axioms Hsm.C35_fifo

/-- info: 'Hsm.C35_visit' depends on axioms: [propext] -/
#guard_msgs (whitespace := lax) in
#print axioms Hsm.C35_visit

/-- info: 'Hsm.Uptr.C36_sound' depends on axioms: [propext, Quot.sound] -/
#guard_msgs (whitespace := lax) in
#print axioms Hsm.Uptr.C36_sound

/-- info: 'Hsm.Uptr.C36_no_leak' depends on axioms: [propext, Quot.sound] -/
#guard_msgs (whitespace := lax) in
#print axioms Hsm.Uptr.C36_no_leak

/-- info: 'Hsm.Uptr.C36_all_deleted' depends on axioms: [propext, Quot.sound] -/
#guard_msgs (whitespace := lax) in
#print axioms Hsm.Uptr.C36_all_deleted

/-- info: 'Hsm.Uptr.C36_assign' depends on axioms: [propext, Quot.sound] -/
#guard_msgs (whitespace := lax) in
#print axioms Hsm.Uptr.C36_assign

/-- info: 'Hsm.Dsl.C37_partial' depends on axioms: [propext] -/
#guard_msgs (whitespace := lax) in
#print axioms Hsm.Dsl.C37_partial

/-- info: 'Hsm.Dsl.C37_plain' depends on axioms: [propext] -/
#guard_msgs (whitespace := lax) in
#print axioms Hsm.Dsl.C37_plain

/-- info: 'Hsm.Dsl.C37_pseudo_target' depends on axioms: [propext] -/
#guard_msgs (whitespace := lax) in
#print axioms Hsm.Dsl.C37_pseudo_target

/-- info: 'Hsm.Dsl.C37_internal' depends on axioms: [propext] -/
#guard_msgs (whitespace := lax) in
#print axioms Hsm.Dsl.C37_internal

/-- info: 'Hsm.Dsl.C37_internal_parens' depends on axioms: [propext] -/
#guard_msgs (whitespace := lax) in
#print axioms Hsm.Dsl.C37_internal_parens

/-- info: 'Hsm.Dsl.C37_refuted' depends on axioms: [propext] -/
#guard_msgs (whitespace := lax) in
#print axioms Hsm.Dsl.C37_refuted

/-- info: 'Hsm.Dsl.C37_transition_refuted' depends on axioms: [propext] -/
#guard_msgs (whitespace := lax) in
#print axioms Hsm.Dsl.C37_transition_refuted

/-- info: 'Hsm.C38_ok' depends on axioms: [propext, Classical.choice, Quot.sound] -/
#guard_msgs (whitespace := lax) in
#print axioms Hsm.C38_ok

/-- info: 'Hsm.C38_throw' depends on axioms: [propext, Classical.choice, Quot.sound] -/
#guard_msgs (whitespace := lax) in
#print axioms Hsm.C38_throw

/-- info: 'Hsm.C38_ub' depends on axioms: [propext, Classical.choice, Quot.sound] -/
#guard_msgs (whitespace := lax) in
#print axioms Hsm.C38_ub

/-- info: 'Hsm.C38_assoc' depends on axioms: [Quot.sound] -/
#guard_msgs (whitespace := lax) in
#print axioms Hsm.C38_assoc

/-- info: 'Hsm.C38_trivial' does not depend on any axioms -/
#guard_msgs (whitespace := lax) in
#print axioms Hsm.C38_trivial

/-- info: 'Hsm.C38_copies' depends on axioms: [propext] -/
#guard_msgs (whitespace := lax) in
#print axioms Hsm.C38_copies

/-- info: 'Hsm.C38_objects' depends on axioms: [Quot.sound] -/
#guard_msgs (whitespace := lax) in
#print axioms Hsm.C38_objects

/-- info: 'Hsm.C39_exists' depends on axioms: [propext, Classical.choice, Quot.sound] -/
#guard_msgs (whitespace := lax) in
#print axioms Hsm.C39_exists

/-- info: 'Hsm.C39_create' depends on axioms: [propext] -/
#guard_msgs (whitespace := lax) in
#print axioms Hsm.C39_create

/-- info: 'Hsm.C39_stays' depends on axioms: [propext, Classical.choice, Quot.sound] -/
#guard_msgs (whitespace := lax) in
#print axioms Hsm.C39_stays

/-- info: 'Hsm.C39_guard' depends on axioms: [propext, Classical.choice, Quot.sound] -/
#guard_msgs (whitespace := lax) in
#print axioms Hsm.C39_guard

/-- info: 'Hsm.C39_source' depends on axioms: [propext, Classical.choice, Quot.sound] -/
#guard_msgs (whitespace := lax) in
#print axioms Hsm.C39_source

/-- info: 'Hsm.C39_reuse' depends on axioms: [propext, Classical.choice, Quot.sound] -/
#guard_msgs (whitespace := lax) in
#print axioms Hsm.C39_reuse

/-- info: 'Hsm.C39_chain' depends on axioms: [propext] -/
#guard_msgs (whitespace := lax) in
#print axioms Hsm.C39_chain

/-- info: 'Hsm.C40_absent' depends on axioms: [propext] -/
#guard_msgs (whitespace := lax) in
#print axioms Hsm.C40_absent

/-- info: 'Hsm.C40_once' depends on axioms: [propext, Quot.sound] -/
#guard_msgs (whitespace := lax) in
#print axioms Hsm.C40_once

/-- info: 'Hsm.C40_duplicate' depends on axioms: [propext, Quot.sound] -/
#guard_msgs (whitespace := lax) in
#print axioms Hsm.C40_duplicate

/-- info: 'Hsm.C41_calls' depends on axioms: [propext, Classical.choice, Quot.sound] -/
#guard_msgs (whitespace := lax) in
#print axioms Hsm.C41_calls

/-- info: 'Hsm.C41_moves' depends on axioms: [propext, Classical.choice, Quot.sound] -/
#guard_msgs (whitespace := lax) in
#print axioms Hsm.C41_moves

/-- info: 'Hsm.C41_order' depends on axioms: [propext, Classical.choice, Quot.sound] -/
#guard_msgs (whitespace := lax) in
#print axioms Hsm.C41_order

/-- info: 'Hsm.C41_chronicle' depends on axioms: [propext, Classical.choice, Quot.sound] -/
#guard_msgs (whitespace := lax) in
#print axioms Hsm.C41_chronicle

/-- info: 'Hsm.C42_origin' depends on axioms: [propext, Classical.choice, Quot.sound] -/
#guard_msgs (whitespace := lax) in
#print axioms Hsm.C42_origin

/-- info: 'Hsm.C42_children' depends on axioms: [propext, Classical.choice, Quot.sound] -/
#guard_msgs (whitespace := lax) in
#print axioms Hsm.C42_children

/-- info: 'Hsm.C43_payload' depends on axioms: [propext, Classical.choice, Quot.sound] -/
#guard_msgs (whitespace := lax) in
#print axioms Hsm.C43_payload

/-- info: 'Hsm.C43_payload_throw' depends on axioms: [propext, Classical.choice, Quot.sound] -/
#guard_msgs (whitespace := lax) in
#print axioms Hsm.C43_payload_throw

/-- info: 'Hsm.C44_status' depends on axioms: [propext, Classical.choice, Quot.sound] -/
#guard_msgs (whitespace := lax) in
#print axioms Hsm.C44_status

/-- info: 'Hsm.C44_location' depends on axioms: [propext, Classical.choice, Quot.sound] -/
#guard_msgs (whitespace := lax) in
#print axioms Hsm.C44_location

/-- info: 'Hsm.C44_parent_refuted' depends on axioms: [propext, Classical.choice, Quot.sound] -/
#guard_msgs (whitespace := lax) in
#print axioms Hsm.C44_parent_refuted

/-- info: 'Hsm.C45_order' depends on axioms: [propext, Classical.choice, Quot.sound] -/
#guard_msgs (whitespace := lax) in
#print axioms Hsm.C45_order

/-- info: 'Hsm.C46_initial' depends on axioms: [propext, Classical.choice, Quot.sound] -/
#guard_msgs (whitespace := lax) in
#print axioms Hsm.C46_initial

/-- info: 'Hsm.C47_uniq' depends on axioms: [propext, Classical.choice, Quot.sound] -/
#guard_msgs (whitespace := lax) in
#print axioms Hsm.C47_uniq

/-- info: 'Hsm.C48_partial' depends on axioms: [propext, Classical.choice, Quot.sound] -/
#guard_msgs (whitespace := lax) in
#print axioms Hsm.C48_partial

/-- info: 'Hsm.C48_refuted' depends on axioms: [propext, Classical.choice, Quot.sound] -/
#guard_msgs (whitespace := lax) in
#print axioms Hsm.C48_refuted

/-- info: 'Hsm.C75_asked' depends on axioms: [propext, Classical.choice, Quot.sound] -/
#guard_msgs (whitespace := lax) in
#print axioms Hsm.C75_asked

/-- info: 'Hsm.C49_returns' depends on axioms: [propext, Classical.choice, Quot.sound] -/
#guard_msgs (whitespace := lax) in
#print axioms Hsm.C49_returns

/-- info: 'Hsm.C49_throws' depends on axioms: [propext, Classical.choice, Quot.sound] -/
#guard_msgs (whitespace := lax) in
#print axioms Hsm.C49_throws

/-- info: 'Hsm.C49_unique' depends on axioms: [propext, Classical.choice, Quot.sound] -/
#guard_msgs (whitespace := lax) in
#print axioms Hsm.C49_unique

/-- info: 'Hsm.C50_priority' depends on axioms: [propext, Classical.choice, Quot.sound] -/
#guard_msgs (whitespace := lax) in
#print axioms Hsm.C50_priority

/-- info: 'Hsm.C51_partial' depends on axioms: [propext, Classical.choice, Quot.sound] -/
#guard_msgs (whitespace := lax) in
#print axioms Hsm.C51_partial

/-- info: 'Hsm.C51_refuted' depends on axioms: [propext, Classical.choice, Quot.sound] -/
#guard_msgs (whitespace := lax) in
#print axioms Hsm.C51_refuted

/-- info: 'Hsm.C52_partial' depends on axioms: [propext, Classical.choice, Quot.sound] -/
#guard_msgs (whitespace := lax) in
#print axioms Hsm.C52_partial

/-- info: 'Hsm.C52_outer_first' depends on axioms: [propext, Classical.choice, Quot.sound] -/
#guard_msgs (whitespace := lax) in
#print axioms Hsm.C52_outer_first

/-- info: 'Hsm.C52_refuted' depends on axioms: [propext, Classical.choice, Quot.sound] -/
#guard_msgs (whitespace := lax) in
#print axioms Hsm.C52_refuted

/-- info: 'Hsm.C53_partial' depends on axioms: [propext, Classical.choice, Quot.sound] -/
#guard_msgs (whitespace := lax) in
#print axioms Hsm.C53_partial

/-- info: 'Hsm.C53_answer' depends on axioms: [propext, Classical.choice, Quot.sound] -/
#guard_msgs (whitespace := lax) in
#print axioms Hsm.C53_answer

/-- info: 'Hsm.C53_out_of_range' depends on axioms: [propext, Classical.choice, Quot.sound] -/
#guard_msgs (whitespace := lax) in
#print axioms Hsm.C53_out_of_range

/-- info: 'Hsm.C53_refuted' depends on axioms: [propext, Classical.choice, Quot.sound] -/
#guard_msgs (whitespace := lax) in
#print axioms Hsm.C53_refuted

/-- info: 'Hsm.C54_compiles' depends on axioms: [propext, Classical.choice, Quot.sound] -/
#guard_msgs (whitespace := lax) in
#print axioms Hsm.C54_compiles

/-- info: 'Hsm.C55_objects' depends on axioms: [propext, Quot.sound] -/
#guard_msgs (whitespace := lax) in
#print axioms Hsm.C55_objects

/-- info: 'Hsm.C55_calls' depends on axioms: [propext, Classical.choice, Quot.sound] -/
#guard_msgs (whitespace := lax) in
#print axioms Hsm.C55_calls

/-- info: 'Hsm.C56_partial' depends on axioms: [propext, Classical.choice, Quot.sound] -/
#guard_msgs (whitespace := lax) in
#print axioms Hsm.C56_partial

/-- info: 'Hsm.C56_hangs' depends on axioms: [propext, Classical.choice, Quot.sound] -/
#guard_msgs (whitespace := lax) in
#print axioms Hsm.C56_hangs

/-- info: 'Hsm.C56_refuted' depends on axioms: [propext, Classical.choice, Quot.sound] -/
#guard_msgs (whitespace := lax) in
#print axioms Hsm.C56_refuted

/-- info: 'Hsm.C57_places' depends on axioms: [propext, Classical.choice, Quot.sound] -/
#guard_msgs (whitespace := lax) in
#print axioms Hsm.C57_places

/-- info: 'Hsm.C57_conservative' depends on axioms: [propext, Quot.sound] -/
#guard_msgs (whitespace := lax) in
#print axioms Hsm.C57_conservative

/-- info: 'Hsm.C58_partial' depends on axioms: [propext, Classical.choice, Quot.sound] -/
#guard_msgs (whitespace := lax) in
#print axioms Hsm.C58_partial

/-- info: 'Hsm.C58_refuted' depends on axioms: [propext, Classical.choice, Quot.sound] -/
#guard_msgs (whitespace := lax) in
#print axioms Hsm.C58_refuted

/-- info: 'Hsm.C59_partial' depends on axioms: [propext, Classical.choice, Quot.sound] -/
#guard_msgs (whitespace := lax) in
#print axioms Hsm.C59_partial

/-- info: 'Hsm.C59_only_iterators' depends on axioms: [propext, Classical.choice, Quot.sound] -/
#guard_msgs (whitespace := lax) in
#print axioms Hsm.C59_only_iterators

/-- info: 'Hsm.C59_refuted' depends on axioms: [propext, Classical.choice, Quot.sound] -/
#guard_msgs (whitespace := lax) in
#print axioms Hsm.C59_refuted

/-- info: 'Hsm.C60_partial' depends on axioms: [propext, Classical.choice, Quot.sound] -/
#guard_msgs (whitespace := lax) in
#print axioms Hsm.C60_partial

/-- info: 'Hsm.C60_refuted' depends on axioms: [propext, Classical.choice, Quot.sound] -/
#guard_msgs (whitespace := lax) in
#print axioms Hsm.C60_refuted

/-- info: 'Hsm.C61_partial' depends on axioms: [propext, Classical.choice, Quot.sound] -/
#guard_msgs (whitespace := lax) in
#print axioms Hsm.C61_partial

/-- info: 'Hsm.C61_process' depends on axioms: [propext, Classical.choice, Quot.sound] -/
#guard_msgs (whitespace := lax) in
#print axioms Hsm.C61_process

/-- info: 'Hsm.C61_process_throw' depends on axioms: [propext, Classical.choice, Quot.sound] -/
#guard_msgs (whitespace := lax) in
#print axioms Hsm.C61_process_throw

/-- info: 'Hsm.C61_refuted_deferral' depends on axioms: [propext, Classical.choice, Quot.sound] -/
#guard_msgs (whitespace := lax) in
#print axioms Hsm.C61_refuted_deferral

/-- info: 'Hsm.C61_refuted_internal' depends on axioms: [propext, Classical.choice, Quot.sound] -/
#guard_msgs (whitespace := lax) in
#print axioms Hsm.C61_refuted_internal

/-- info: 'Hsm.C61_refuted_order' depends on axioms: [propext, Classical.choice, Quot.sound] -/
#guard_msgs (whitespace := lax) in
#print axioms Hsm.C61_refuted_order

/-- info: 'Hsm.C62_partial' depends on axioms: [propext, Classical.choice, Quot.sound] -/
#guard_msgs (whitespace := lax) in
#print axioms Hsm.C62_partial

/-- info: 'Hsm.C62_refuted_order' depends on axioms: [propext, Classical.choice, Quot.sound] -/
#guard_msgs (whitespace := lax) in
#print axioms Hsm.C62_refuted_order

/-- info: 'Hsm.C62_refuted_effect' depends on axioms: [propext, Classical.choice, Quot.sound] -/
#guard_msgs (whitespace := lax) in
#print axioms Hsm.C62_refuted_effect

/-- info: 'Hsm.C62_all_partial' depends on axioms: [propext, Classical.choice, Quot.sound] -/
#guard_msgs (whitespace := lax) in
#print axioms Hsm.C62_all_partial

/-- info: 'Hsm.C63_partial' depends on axioms: [propext, Classical.choice, Quot.sound] -/
#guard_msgs (whitespace := lax) in
#print axioms Hsm.C63_partial

/-- info: 'Hsm.C63_refuted' depends on axioms: [propext, Classical.choice, Quot.sound] -/
#guard_msgs (whitespace := lax) in
#print axioms Hsm.C63_refuted

/-- info: 'Hsm.C63_all_partial' depends on axioms: [propext, Classical.choice, Quot.sound] -/
#guard_msgs (whitespace := lax) in
#print axioms Hsm.C63_all_partial

/-- info: 'Hsm.C64_locations' depends on axioms: [propext, Classical.choice, Quot.sound] -/
#guard_msgs (whitespace := lax) in
#print axioms Hsm.C64_locations

/-- info: 'Hsm.C64_callbacks' depends on axioms: [propext, Classical.choice, Quot.sound] -/
#guard_msgs (whitespace := lax) in
#print axioms Hsm.C64_callbacks

/-- info: 'Hsm.C64_closed' depends on axioms: [propext, Classical.choice, Quot.sound] -/
#guard_msgs (whitespace := lax) in
#print axioms Hsm.C64_closed

/-- info: 'Hsm.C65_partial' depends on axioms: [propext, Classical.choice, Quot.sound] -/
#guard_msgs (whitespace := lax) in
#print axioms Hsm.C65_partial

/-- info: 'Hsm.C65_conditions_partial' depends on axioms: [propext, Classical.choice, Quot.sound] -/
#guard_msgs (whitespace := lax) in
#print axioms Hsm.C65_conditions_partial

/-- info: 'Hsm.C65_exact_partial' depends on axioms: [propext, Classical.choice, Quot.sound] -/
#guard_msgs (whitespace := lax) in
#print axioms Hsm.C65_exact_partial

/-- info: 'Hsm.C65_refuted_anonymous' depends on axioms: [propext, Classical.choice, Quot.sound] -/
#guard_msgs (whitespace := lax) in
#print axioms Hsm.C65_refuted_anonymous

/-- info: 'Hsm.C65_refuted_history' depends on axioms: [propext, Classical.choice, Quot.sound] -/
#guard_msgs (whitespace := lax) in
#print axioms Hsm.C65_refuted_history

/-- info: 'Hsm.C65_refuted_regions' depends on axioms: [propext, Classical.choice, Quot.sound] -/
#guard_msgs (whitespace := lax) in
#print axioms Hsm.C65_refuted_regions

/-- info: 'Hsm.C66_declared' depends on axioms: [propext, Classical.choice, Quot.sound] -/
#guard_msgs (whitespace := lax) in
#print axioms Hsm.C66_declared

/-- info: 'Hsm.C66_elsewhere' depends on axioms: [propext, Classical.choice, Quot.sound] -/
#guard_msgs (whitespace := lax) in
#print axioms Hsm.C66_elsewhere

/-- info: 'Hsm.C67_order' depends on axioms: [propext, Classical.choice, Quot.sound] -/
#guard_msgs (whitespace := lax) in
#print axioms Hsm.C67_order

/-- info: 'Hsm.C67_order_back' depends on axioms: [propext, Classical.choice, Quot.sound] -/
#guard_msgs (whitespace := lax) in
#print axioms Hsm.C67_order_back

/-- info: 'Hsm.C67_readings' depends on axioms: [propext, Classical.choice, Quot.sound] -/
#guard_msgs (whitespace := lax) in
#print axioms Hsm.C67_readings

/-- info: 'Hsm.C67_initials' depends on axioms: [propext, Classical.choice, Quot.sound] -/
#guard_msgs (whitespace := lax) in
#print axioms Hsm.C67_initials

/-- info: 'Hsm.C68_size' depends on axioms: [propext, Classical.choice, Quot.sound] -/
#guard_msgs (whitespace := lax) in
#print axioms Hsm.C68_size

/-- info: 'Hsm.C68_bound' depends on axioms: [propext, Classical.choice, Quot.sound] -/
#guard_msgs (whitespace := lax) in
#print axioms Hsm.C68_bound

/-- info: 'Hsm.C68_exact' depends on axioms: [propext, Classical.choice, Quot.sound] -/
#guard_msgs (whitespace := lax) in
#print axioms Hsm.C68_exact

/-- info: 'Hsm.C68_refuted' depends on axioms: [propext, Classical.choice, Quot.sound] -/
#guard_msgs (whitespace := lax) in
#print axioms Hsm.C68_refuted

/-- info: 'Hsm.C69_tail_partial' depends on axioms: [propext, Classical.choice, Quot.sound] -/
#guard_msgs (whitespace := lax) in
#print axioms Hsm.C69_tail_partial

/-- info: 'Hsm.C69_back_partial' depends on axioms: [propext, Classical.choice, Quot.sound] -/
#guard_msgs (whitespace := lax) in
#print axioms Hsm.C69_back_partial

/-- info: 'Hsm.C69_partial' depends on axioms: [propext, Classical.choice, Quot.sound] -/
#guard_msgs (whitespace := lax) in
#print axioms Hsm.C69_partial

/-- info: 'Hsm.C69_refuted_middle' depends on axioms: [propext, Classical.choice, Quot.sound] -/
#guard_msgs (whitespace := lax) in
#print axioms Hsm.C69_refuted_middle

/-- info: 'Hsm.C69_refuted_regions' depends on axioms: [propext, Classical.choice, Quot.sound] -/
#guard_msgs (whitespace := lax) in
#print axioms Hsm.C69_refuted_regions

/-- info: 'Hsm.C69_refuted_anonymous' depends on axioms: [propext, Classical.choice, Quot.sound] -/
#guard_msgs (whitespace := lax) in
#print axioms Hsm.C69_refuted_anonymous

/-- info: 'Hsm.C69_refuted_deferred' depends on axioms: [propext, Classical.choice, Quot.sound] -/
#guard_msgs (whitespace := lax) in
#print axioms Hsm.C69_refuted_deferred

/-- info: 'Hsm.C70_remove_partial' depends on axioms: [propext, Classical.choice, Quot.sound] -/
#guard_msgs (whitespace := lax) in
#print axioms Hsm.C70_remove_partial

/-- info: 'Hsm.C70_add_partial' depends on axioms: [propext, Classical.choice, Quot.sound] -/
#guard_msgs (whitespace := lax) in
#print axioms Hsm.C70_add_partial

/-- info: 'Hsm.C70_partial' depends on axioms: [propext, Classical.choice, Quot.sound] -/
#guard_msgs (whitespace := lax) in
#print axioms Hsm.C70_partial

/-- info: 'Hsm.C70_refuted' depends on axioms: [propext, Classical.choice, Quot.sound] -/
#guard_msgs (whitespace := lax) in
#print axioms Hsm.C70_refuted

/-- info: 'Hsm.C71_behaviour' depends on axioms: [propext, Classical.choice, Quot.sound] -/
#guard_msgs (whitespace := lax) in
#print axioms Hsm.C71_behaviour

/-- info: 'Hsm.C71_answer' depends on axioms: [propext, Classical.choice, Quot.sound] -/
#guard_msgs (whitespace := lax) in
#print axioms Hsm.C71_answer

/-- info: 'Hsm.C71_total' depends on axioms: [propext, Classical.choice, Quot.sound] -/
#guard_msgs (whitespace := lax) in
#print axioms Hsm.C71_total

/-- info: 'Hsm.C71_flat' depends on axioms: [propext, Quot.sound] -/
#guard_msgs (whitespace := lax) in
#print axioms Hsm.C71_flat

/-- info: 'Hsm.Programs.C72_automaton' depends on axioms: [propext, Classical.choice, Quot.sound] -/
#guard_msgs (whitespace := lax) in
#print axioms Hsm.Programs.C72_automaton

/-- info: 'Hsm.Programs.C72_turnstile' depends on axioms: [propext, Classical.choice, Quot.sound] -/
#guard_msgs (whitespace := lax) in
#print axioms Hsm.Programs.C72_turnstile

/-- info: 'Hsm.Programs.C72_turnstile_error' depends on axioms: [propext, Classical.choice, Quot.sound] -/
#guard_msgs (whitespace := lax) in
#print axioms Hsm.Programs.C72_turnstile_error

/-- info: 'Hsm.Programs.C72_cdplayer' depends on axioms: [propext, Classical.choice, Quot.sound] -/
#guard_msgs (whitespace := lax) in
#print axioms Hsm.Programs.C72_cdplayer

/-- info: 'Hsm.Programs.C72_simple' depends on axioms: [propext, Classical.choice, Quot.sound] -/
#guard_msgs (whitespace := lax) in
#print axioms Hsm.Programs.C72_simple

/-- info: 'Hsm.Programs.C72_ring' depends on axioms: [propext, Classical.choice, Quot.sound] -/
#guard_msgs (whitespace := lax) in
#print axioms Hsm.Programs.C72_ring

/-- info: 'Hsm.Programs.C72_ring_stuck' depends on axioms: [propext, Classical.choice, Quot.sound] -/
#guard_msgs (whitespace := lax) in
#print axioms Hsm.Programs.C72_ring_stuck

/-- info: 'Hsm.Programs.C72_safe' depends on axioms: [propext, Classical.choice, Quot.sound] -/
#guard_msgs (whitespace := lax) in
#print axioms Hsm.Programs.C72_safe

/-- info: 'Hsm.Programs.C72_unsafe' depends on axioms: [propext, Classical.choice, Quot.sound] -/
#guard_msgs (whitespace := lax) in
#print axioms Hsm.Programs.C72_unsafe

/-- info: 'Hsm.C73_event' depends on axioms: [propext, Classical.choice, Quot.sound] -/
#guard_msgs (whitespace := lax) in
#print axioms Hsm.C73_event

/-- info: 'Hsm.C73_history' depends on axioms: [propext, Classical.choice, Quot.sound] -/
#guard_msgs (whitespace := lax) in
#print axioms Hsm.C73_history

/-- info: 'Hsm.C73_vending' depends on axioms: [propext, Classical.choice, Quot.sound] -/
#guard_msgs (whitespace := lax) in
#print axioms Hsm.C73_vending

/-- info: 'Hsm.C74_candidates' depends on axioms: [propext, Classical.choice, Quot.sound] -/
#guard_msgs (whitespace := lax) in
#print axioms Hsm.C74_candidates

/-- info: 'Hsm.C74_once' depends on axioms: [propext, Classical.choice, Quot.sound] -/
#guard_msgs (whitespace := lax) in
#print axioms Hsm.C74_once

/-- info: 'Hsm.C74_event' depends on axioms: [propext, Classical.choice, Quot.sound] -/
#guard_msgs (whitespace := lax) in
#print axioms Hsm.C74_event

/-- info: 'Hsm.C74_partial' depends on axioms: [propext, Classical.choice, Quot.sound] -/
#guard_msgs (whitespace := lax) in
#print axioms Hsm.C74_partial

/-- info: 'Hsm.C74_runs' depends on axioms: [propext, Classical.choice, Quot.sound] -/
#guard_msgs (whitespace := lax) in
#print axioms Hsm.C74_runs

/-- info: 'Hsm.C74_entered' depends on axioms: [propext, Classical.choice, Quot.sound] -/
#guard_msgs (whitespace := lax) in
#print axioms Hsm.C74_entered

/-- info: 'Hsm.C74_steady' depends on axioms: [propext, Classical.choice, Quot.sound] -/
#guard_msgs (whitespace := lax) in
#print axioms Hsm.C74_steady

/-- info: 'Hsm.C74_behave' depends on axioms: [propext, Classical.choice, Quot.sound] -/
#guard_msgs (whitespace := lax) in
#print axioms Hsm.C74_behave

/-- info: 'Hsm.C74_several' depends on axioms: [propext, Classical.choice, Quot.sound] -/
#guard_msgs (whitespace := lax) in
#print axioms Hsm.C74_several

/-- info: 'Hsm.C74_several_answer' depends on axioms: [propext, Classical.choice, Quot.sound] -/
#guard_msgs (whitespace := lax) in
#print axioms Hsm.C74_several_answer

/-- info: 'Hsm.C74_refuted_twice' depends on axioms: [propext, Classical.choice, Quot.sound] -/
#guard_msgs (whitespace := lax) in
#print axioms Hsm.C74_refuted_twice

/-- info: 'Hsm.C74_refuted_outer' depends on axioms: [propext, Classical.choice, Quot.sound] -/
#guard_msgs (whitespace := lax) in
#print axioms Hsm.C74_refuted_outer

/-- info: 'Hsm.C74_refuted_handler' depends on axioms: [propext, Classical.choice, Quot.sound] -/
#guard_msgs (whitespace := lax) in
#print axioms Hsm.C74_refuted_handler

/-- info: 'Hsm.Machine.C75_rows' depends on axioms: [propext, Quot.sound] -/
#guard_msgs (whitespace := lax) in
#print axioms Hsm.Machine.C75_rows

/-- info: 'Hsm.Machine.C75_entrances' depends on axioms: [propext, Quot.sound] -/
#guard_msgs (whitespace := lax) in
#print axioms Hsm.Machine.C75_entrances

/-- info: 'Hsm.Machine.C75_waysIn_pos' depends on axioms: [propext, Classical.choice, Quot.sound] -/
#guard_msgs (whitespace := lax) in
#print axioms Hsm.Machine.C75_waysIn_pos

/-- info: 'Hsm.Machine.C75_tries' depends on axioms: [propext, Quot.sound] -/
#guard_msgs (whitespace := lax) in
#print axioms Hsm.Machine.C75_tries

/-- info: 'Hsm.Machine.C75_internal' depends on axioms: [propext, Classical.choice, Quot.sound] -/
#guard_msgs (whitespace := lax) in
#print axioms Hsm.Machine.C75_internal

/-- info: 'Hsm.C75_guard' depends on axioms: [propext, Classical.choice, Quot.sound] -/
#guard_msgs (whitespace := lax) in
#print axioms Hsm.C75_guard

/-- info: 'Hsm.C75_guard_throw' depends on axioms: [propext, Classical.choice, Quot.sound] -/
#guard_msgs (whitespace := lax) in
#print axioms Hsm.C75_guard_throw

/-- info: 'Hsm.C75_asked_throw' depends on axioms: [propext, Classical.choice, Quot.sound] -/
#guard_msgs (whitespace := lax) in
#print axioms Hsm.C75_asked_throw

/-- info: 'Hsm.C75_asked_internal' depends on axioms: [propext, Classical.choice, Quot.sound] -/
#guard_msgs (whitespace := lax) in
#print axioms Hsm.C75_asked_internal

/-- info: 'Hsm.C75_asked_written' depends on axioms: [propext, Classical.choice, Quot.sound] -/
#guard_msgs (whitespace := lax) in
#print axioms Hsm.C75_asked_written

/-- info: 'Hsm.C75_exponential' depends on axioms: [propext, Classical.choice, Quot.sound] -/
#guard_msgs (whitespace := lax) in
#print axioms Hsm.C75_exponential

/-- info: 'Hsm.Renamed.accepts' depends on axioms: [propext, Quot.sound] -/
#guard_msgs (whitespace := lax) in
#print axioms Hsm.Renamed.accepts

/-- info: 'Hsm.Renamed.comb' depends on axioms: [propext, Quot.sound] -/
#guard_msgs (whitespace := lax) in
#print axioms Hsm.Renamed.comb

/-- info: 'Hsm.Renamed.C76_construct' depends on axioms: [propext, Quot.sound] -/
#guard_msgs (whitespace := lax) in
#print axioms Hsm.Renamed.C76_construct

/-- info: 'Hsm.Renamed.C76_event' depends on axioms: [propext, Quot.sound] -/
#guard_msgs (whitespace := lax) in
#print axioms Hsm.Renamed.C76_event

/-- info: 'Hsm.Renamed.C76_step' depends on axioms: [propext, Quot.sound] -/
#guard_msgs (whitespace := lax) in
#print axioms Hsm.Renamed.C76_step

/-- info: 'Hsm.Renamed.C76_runs' depends on axioms: [propext, Quot.sound] -/
#guard_msgs (whitespace := lax) in
#print axioms Hsm.Renamed.C76_runs

/-- info: 'Hsm.Renamed.C76_runAll' depends on axioms: [propext, Quot.sound] -/
#guard_msgs (whitespace := lax) in
#print axioms Hsm.Renamed.C76_runAll

/-- info: 'Hsm.Renamed.C76_observe' depends on axioms: [propext, Quot.sound] -/
#guard_msgs (whitespace := lax) in
#print axioms Hsm.Renamed.C76_observe

/-- info: 'Hsm.C76_refuted_merged' depends on axioms: [propext, Quot.sound] -/
#guard_msgs (whitespace := lax) in
#print axioms Hsm.C76_refuted_merged

/-- info: 'Hsm.C77_construct' depends on axioms: [propext, Classical.choice, Quot.sound] -/
#guard_msgs (whitespace := lax) in
#print axioms Hsm.C77_construct

/-- info: 'Hsm.C77_event' depends on axioms: [propext, Classical.choice, Quot.sound] -/
#guard_msgs (whitespace := lax) in
#print axioms Hsm.C77_event

/-- info: 'Hsm.C77_step' depends on axioms: [propext, Classical.choice, Quot.sound] -/
#guard_msgs (whitespace := lax) in
#print axioms Hsm.C77_step

/-- info: 'Hsm.C77_history' depends on axioms: [propext, Classical.choice, Quot.sound] -/
#guard_msgs (whitespace := lax) in
#print axioms Hsm.C77_history

/-- info: 'Hsm.C77_reach' depends on axioms: [propext, Classical.choice, Quot.sound] -/
#guard_msgs (whitespace := lax) in
#print axioms Hsm.C77_reach

/-- info: 'Hsm.C77_undefined' depends on axioms: [propext, Classical.choice, Quot.sound] -/
#guard_msgs (whitespace := lax) in
#print axioms Hsm.C77_undefined

/-- info: 'Hsm.C77_fuel' depends on axioms: [propext, Quot.sound] -/
#guard_msgs (whitespace := lax) in
#print axioms Hsm.C77_fuel

/-- info: 'Hsm.C78_switch' depends on axioms: [propext, Quot.sound] -/
#guard_msgs (whitespace := lax) in
#print axioms Hsm.C78_switch

/-- info: 'Hsm.C78_otherwise' does not depend on any axioms -/
#guard_msgs (whitespace := lax) in
#print axioms Hsm.C78_otherwise

/-- info: 'Hsm.C78_lazy' does not depend on any axioms -/
#guard_msgs (whitespace := lax) in
#print axioms Hsm.C78_lazy

/-- info: 'Hsm.C78_for_each' depends on axioms: [Quot.sound] -/
#guard_msgs (whitespace := lax) in
#print axioms Hsm.C78_for_each

/-- info: 'Hsm.C78_for_each_idx' depends on axioms: [propext, Quot.sound] -/
#guard_msgs (whitespace := lax) in
#print axioms Hsm.C78_for_each_idx

/-- info: 'Hsm.C78_index_map' depends on axioms: [propext, Classical.choice, Quot.sound] -/
#guard_msgs (whitespace := lax) in
#print axioms Hsm.C78_index_map

/-- info: 'Hsm.C78_actions' depends on axioms: [propext, Classical.choice, Quot.sound] -/
#guard_msgs (whitespace := lax) in
#print axioms Hsm.C78_actions

/-- info: 'Hsm.C78_events' depends on axioms: [propext, Classical.choice, Quot.sound] -/
#guard_msgs (whitespace := lax) in
#print axioms Hsm.C78_events

/-- info: 'Hsm.C79' depends on axioms: [propext, Classical.choice, Quot.sound] -/
#guard_msgs (whitespace := lax) in
#print axioms Hsm.C79

/-- info: 'Hsm.C79_told' depends on axioms: [propext, Classical.choice, Quot.sound] -/
#guard_msgs (whitespace := lax) in
#print axioms Hsm.C79_told

/-- info: 'Hsm.C79_smooth' depends on axioms: [propext, Classical.choice, Quot.sound] -/
#guard_msgs (whitespace := lax) in
#print axioms Hsm.C79_smooth

/-- info: 'Hsm.C79_verdicts_needed' depends on axioms: [propext, Classical.choice, Quot.sound] -/
#guard_msgs (whitespace := lax) in
#print axioms Hsm.C79_verdicts_needed

/-- info: 'Hsm.C80_places' depends on axioms: [propext, Classical.choice, Quot.sound] -/
#guard_msgs (whitespace := lax) in
#print axioms Hsm.C80_places

/-- info: 'Hsm.C80_undefined' depends on axioms: [propext, Classical.choice, Quot.sound] -/
#guard_msgs (whitespace := lax) in
#print axioms Hsm.C80_undefined

/-- info: 'Hsm.C80_closed' depends on axioms: [propext, Classical.choice, Quot.sound] -/
#guard_msgs (whitespace := lax) in
#print axioms Hsm.C80_closed

/-- info: 'Hsm.C80_safe' depends on axioms: [propext, Classical.choice, Quot.sound] -/
#guard_msgs (whitespace := lax) in
#print axioms Hsm.C80_safe

/-- info: 'Hsm.C80_defined' depends on axioms: [propext, Classical.choice, Quot.sound] -/
#guard_msgs (whitespace := lax) in
#print axioms Hsm.C80_defined

/-- info: 'Hsm.C80_found' depends on axioms: [propext, Classical.choice, Quot.sound] -/
#guard_msgs (whitespace := lax) in
#print axioms Hsm.C80_found

/-- info: 'Hsm.C80_visited' depends on axioms: [propext, Classical.choice, Quot.sound] -/
#guard_msgs (whitespace := lax) in
#print axioms Hsm.C80_visited

/-- info: 'Hsm.C80_listed' depends on axioms: [propext, Classical.choice, Quot.sound] -/
#guard_msgs (whitespace := lax) in
#print axioms Hsm.C80_listed

/-- info: 'Hsm.C80_exact' depends on axioms: [propext, Classical.choice, Quot.sound] -/
#guard_msgs (whitespace := lax) in
#print axioms Hsm.C80_exact

/-- info: 'Hsm.C80_defer_needed' depends on axioms: [propext, Classical.choice, Quot.sound] -/
#guard_msgs (whitespace := lax) in
#print axioms Hsm.C80_defer_needed

/-- info: 'Hsm.C80_set_needed' depends on axioms: [propext, Classical.choice, Quot.sound] -/
#guard_msgs (whitespace := lax) in
#print axioms Hsm.C80_set_needed

/-- info: 'Hsm.C81_same' depends on axioms: [propext, Quot.sound] -/
#guard_msgs (whitespace := lax) in
#print axioms Hsm.C81_same

/-- info: 'Hsm.C81_life' depends on axioms: [propext, Quot.sound] -/
#guard_msgs (whitespace := lax) in
#print axioms Hsm.C81_life

/-- info: 'Hsm.C81_gone' depends on axioms: [propext, Quot.sound] -/
#guard_msgs (whitespace := lax) in
#print axioms Hsm.C81_gone

/-- info: 'Hsm.C81_asked' depends on axioms: [propext] -/
#guard_msgs (whitespace := lax) in
#print axioms Hsm.C81_asked

/-- info: 'Hsm.C81_left' depends on axioms: [propext, Classical.choice, Quot.sound] -/
#guard_msgs (whitespace := lax) in
#print axioms Hsm.C81_left

/-- info: 'Hsm.C81_swapped' depends on axioms: [propext, Classical.choice, Quot.sound] -/
#guard_msgs (whitespace := lax) in
#print axioms Hsm.C81_swapped

/-- info: 'Hsm.C81_silent' depends on axioms: [propext, Classical.choice, Quot.sound] -/
#guard_msgs (whitespace := lax) in
#print axioms Hsm.C81_silent

/-- info: 'Hsm.C81_refilled' depends on axioms: [propext, Classical.choice, Quot.sound] -/
#guard_msgs (whitespace := lax) in
#print axioms Hsm.C81_refilled

/-- info: 'Hsm.Ex.C81_use_after_move' depends on axioms: [propext, Quot.sound] -/
#guard_msgs (whitespace := lax) in
#print axioms Hsm.Ex.C81_use_after_move

/-- info: 'Hsm.C82_construct' depends on axioms: [propext, Classical.choice, Quot.sound] -/
#guard_msgs (whitespace := lax) in
#print axioms Hsm.C82_construct

/-- info: 'Hsm.C82_event' depends on axioms: [propext, Classical.choice, Quot.sound] -/
#guard_msgs (whitespace := lax) in
#print axioms Hsm.C82_event

/-- info: 'Hsm.C82_step' depends on axioms: [propext, Classical.choice, Quot.sound] -/
#guard_msgs (whitespace := lax) in
#print axioms Hsm.C82_step

/-- info: 'Hsm.C82_history' depends on axioms: [propext, Classical.choice, Quot.sound] -/
#guard_msgs (whitespace := lax) in
#print axioms Hsm.C82_history

/-- info: 'Hsm.C82_undefined' depends on axioms: [propext, Classical.choice, Quot.sound] -/
#guard_msgs (whitespace := lax) in
#print axioms Hsm.C82_undefined

/-- info: 'Hsm.C82_reach' depends on axioms: [propext, Classical.choice, Quot.sound] -/
#guard_msgs (whitespace := lax) in
#print axioms Hsm.C82_reach

/-- info: 'Hsm.C83_event' depends on axioms: [propext, Classical.choice, Quot.sound] -/
#guard_msgs (whitespace := lax) in
#print axioms Hsm.C83_event

/-- info: 'Hsm.C83_step' depends on axioms: [propext, Classical.choice, Quot.sound] -/
#guard_msgs (whitespace := lax) in
#print axioms Hsm.C83_step

/-- info: 'Hsm.C83_history' depends on axioms: [propext, Classical.choice, Quot.sound] -/
#guard_msgs (whitespace := lax) in
#print axioms Hsm.C83_history

/-- info: 'Hsm.C83_undefined' depends on axioms: [propext, Classical.choice, Quot.sound] -/
#guard_msgs (whitespace := lax) in
#print axioms Hsm.C83_undefined

/-- info: 'Hsm.C83_reach' depends on axioms: [propext, Classical.choice, Quot.sound] -/
#guard_msgs (whitespace := lax) in
#print axioms Hsm.C83_reach

/-- info: 'Hsm.Machine.C83_conservative' depends on axioms: [propext, Quot.sound] -/
#guard_msgs (whitespace := lax) in
#print axioms Hsm.Machine.C83_conservative

/-- info: 'Hsm.C84_returns' depends on axioms: [propext, Classical.choice, Quot.sound] -/
#guard_msgs (whitespace := lax) in
#print axioms Hsm.C84_returns

/-- info: 'Hsm.C84_either' depends on axioms: [propext, Classical.choice, Quot.sound] -/
#guard_msgs (whitespace := lax) in
#print axioms Hsm.C84_either

/-- info: 'Hsm.C84_hangs' depends on axioms: [propext, Classical.choice, Quot.sound] -/
#guard_msgs (whitespace := lax) in
#print axioms Hsm.C84_hangs

/-- info: 'Hsm.C84_exact' depends on axioms: [propext, Classical.choice, Quot.sound] -/
#guard_msgs (whitespace := lax) in
#print axioms Hsm.C84_exact

/-- info: 'Hsm.C84_uniform' depends on axioms: [propext, Classical.choice, Quot.sound] -/
#guard_msgs (whitespace := lax) in
#print axioms Hsm.C84_uniform

/-- info: 'Hsm.C85_same' depends on axioms: [propext, Classical.choice, Quot.sound] -/
#guard_msgs (whitespace := lax) in
#print axioms Hsm.C85_same

/-- info: 'Hsm.C85_same_states' depends on axioms: [propext, Classical.choice, Quot.sound] -/
#guard_msgs (whitespace := lax) in
#print axioms Hsm.C85_same_states

/-- info: 'Hsm.C86_keeps' depends on axioms: [propext, Classical.choice, Quot.sound] -/
#guard_msgs (whitespace := lax) in
#print axioms Hsm.C86_keeps

/-- info: 'Hsm.C86_prefix' depends on axioms: [propext, Classical.choice, Quot.sound] -/
#guard_msgs (whitespace := lax) in
#print axioms Hsm.C86_prefix

/-- info: 'Hsm.C86_broken' depends on axioms: [propext, Classical.choice, Quot.sound] -/
#guard_msgs (whitespace := lax) in
#print axioms Hsm.C86_broken

/-- info: 'Hsm.C86_exact' depends on axioms: [propext, Classical.choice, Quot.sound] -/
#guard_msgs (whitespace := lax) in
#print axioms Hsm.C86_exact

/-- info: 'Hsm.C86_decides' depends on axioms: [propext, Classical.choice, Quot.sound] -/
#guard_msgs (whitespace := lax) in
#print axioms Hsm.C86_decides

/-- info: 'Hsm.C86_found' depends on axioms: [propext, Classical.choice, Quot.sound] -/
#guard_msgs (whitespace := lax) in
#print axioms Hsm.C86_found

/-- info: 'Hsm.Programs.C86_turnstile' depends on axioms: [propext, Classical.choice, Quot.sound] -/
#guard_msgs (whitespace := lax) in
#print axioms Hsm.Programs.C86_turnstile

/-- info: 'Hsm.C87_shadow' depends on axioms: [propext, Classical.choice, Quot.sound] -/
#guard_msgs (whitespace := lax) in
#print axioms Hsm.C87_shadow

/-- info: 'Hsm.C87_refines' depends on axioms: [propext, Classical.choice, Quot.sound] -/
#guard_msgs (whitespace := lax) in
#print axioms Hsm.C87_refines

/-- info: 'Hsm.C87_nowhere' depends on axioms: [propext, Classical.choice, Quot.sound] -/
#guard_msgs (whitespace := lax) in
#print axioms Hsm.C87_nowhere

/-- info: 'Hsm.C87_apart' depends on axioms: [propext, Classical.choice, Quot.sound] -/
#guard_msgs (whitespace := lax) in
#print axioms Hsm.C87_apart

/-- info: 'Hsm.C87_decides' depends on axioms: [propext, Classical.choice, Quot.sound] -/
#guard_msgs (whitespace := lax) in
#print axioms Hsm.C87_decides

/-- info: 'Hsm.C87_found' depends on axioms: [propext, Classical.choice, Quot.sound] -/
#guard_msgs (whitespace := lax) in
#print axioms Hsm.C87_found

/-- info: 'Hsm.C87_either' depends on axioms: [propext, Classical.choice, Quot.sound] -/
#guard_msgs (whitespace := lax) in
#print axioms Hsm.C87_either

/-- info: 'Hsm.C88_determines' depends on axioms: [propext, Classical.choice, Quot.sound] -/
#guard_msgs (whitespace := lax) in
#print axioms Hsm.C88_determines

/-- info: 'Hsm.C88_recovers' depends on axioms: [propext, Classical.choice, Quot.sound] -/
#guard_msgs (whitespace := lax) in
#print axioms Hsm.C88_recovers

/-- info: 'Hsm.C88_stuck' depends on axioms: [propext, Classical.choice, Quot.sound] -/
#guard_msgs (whitespace := lax) in
#print axioms Hsm.C88_stuck

/-- info: 'Hsm.C88_decides' depends on axioms: [propext, Classical.choice, Quot.sound] -/
#guard_msgs (whitespace := lax) in
#print axioms Hsm.C88_decides

/-- info: 'Hsm.C88_found' depends on axioms: [propext, Classical.choice, Quot.sound] -/
#guard_msgs (whitespace := lax) in
#print axioms Hsm.C88_found

/-- info: 'Hsm.Programs.C88_turnstile' depends on axioms: [propext, Classical.choice, Quot.sound] -/
#guard_msgs (whitespace := lax) in
#print axioms Hsm.Programs.C88_turnstile

/-- info: 'Hsm.Programs.C88_cdplayer' depends on axioms: [propext, Classical.choice, Quot.sound] -/
#guard_msgs (whitespace := lax) in
#print axioms Hsm.Programs.C88_cdplayer

/-- info: 'Hsm.C89_replaces' depends on axioms: [propext, Classical.choice, Quot.sound] -/
#guard_msgs (whitespace := lax) in
#print axioms Hsm.C89_replaces

/-- info: 'Hsm.C89_interchangeable' depends on axioms: [propext, Classical.choice, Quot.sound] -/
#guard_msgs (whitespace := lax) in
#print axioms Hsm.C89_interchangeable

/-- info: 'Hsm.C90_apart' depends on axioms: [propext, Classical.choice, Quot.sound] -/
#guard_msgs (whitespace := lax) in
#print axioms Hsm.C90_apart

/-- info: 'Hsm.C90_calls' depends on axioms: [propext, Classical.choice, Quot.sound] -/
#guard_msgs (whitespace := lax) in
#print axioms Hsm.C90_calls

/-- info: 'Hsm.C90_answer' depends on axioms: [propext, Classical.choice, Quot.sound] -/
#guard_msgs (whitespace := lax) in
#print axioms Hsm.C90_answer

/-- info: 'Hsm.C90_total' depends on axioms: [propext, Classical.choice, Quot.sound] -/
#guard_msgs (whitespace := lax) in
#print axioms Hsm.C90_total

/-- info: 'Hsm.C91_same' depends on axioms: [propext, Classical.choice, Quot.sound] -/
#guard_msgs (whitespace := lax) in
#print axioms Hsm.C91_same

/-- info: 'Hsm.C91_covers' depends on axioms: [propext, Classical.choice, Quot.sound] -/
#guard_msgs (whitespace := lax) in
#print axioms Hsm.C91_covers

/-- info: 'Hsm.C92_output' depends on axioms: [propext, Classical.choice, Quot.sound] -/
#guard_msgs (whitespace := lax) in
#print axioms Hsm.C92_output

/-- info: 'Hsm.C92_rows' depends on axioms: [propext, Classical.choice, Quot.sound] -/
#guard_msgs (whitespace := lax) in
#print axioms Hsm.C92_rows

/-- info: 'Hsm.C92_partial' depends on axioms: [propext, Classical.choice, Quot.sound] -/
#guard_msgs (whitespace := lax) in
#print axioms Hsm.C92_partial

/-- info: 'Hsm.C92_refuted_history' depends on axioms: [propext, Classical.choice, Quot.sound] -/
#guard_msgs (whitespace := lax) in
#print axioms Hsm.C92_refuted_history

/-- info: 'Hsm.C92_refuted_composite' depends on axioms: [propext, Classical.choice, Quot.sound] -/
#guard_msgs (whitespace := lax) in
#print axioms Hsm.C92_refuted_composite

/-- info: 'Hsm.C92_refuted_pointer' depends on axioms: [propext, Classical.choice, Quot.sound] -/
#guard_msgs (whitespace := lax) in
#print axioms Hsm.C92_refuted_pointer

/-- info: 'Hsm.C92_refuted_exit' depends on axioms: [propext, Classical.choice, Quot.sound] -/
#guard_msgs (whitespace := lax) in
#print axioms Hsm.C92_refuted_exit

/-- info: 'Hsm.C93_ledger' depends on axioms: [propext, Classical.choice, Quot.sound] -/
#guard_msgs (whitespace := lax) in
#print axioms Hsm.C93_ledger

/-- info: 'Hsm.C93_calls' depends on axioms: [propext, Classical.choice, Quot.sound] -/
#guard_msgs (whitespace := lax) in
#print axioms Hsm.C93_calls

/-- info: 'Hsm.C93_still' depends on axioms: [propext, Classical.choice, Quot.sound] -/
#guard_msgs (whitespace := lax) in
#print axioms Hsm.C93_still

/-- info: 'Hsm.C94_locations' depends on axioms: [propext, Classical.choice, Quot.sound] -/
#guard_msgs (whitespace := lax) in
#print axioms Hsm.C94_locations

/-- info: 'Hsm.C94_callbacks' depends on axioms: [propext, Classical.choice, Quot.sound] -/
#guard_msgs (whitespace := lax) in
#print axioms Hsm.C94_callbacks

/-- info: 'Hsm.C94_closed' depends on axioms: [propext, Classical.choice, Quot.sound] -/
#guard_msgs (whitespace := lax) in
#print axioms Hsm.C94_closed

/-- info: 'Hsm.C95_moves' depends on axioms: [propext, Classical.choice, Quot.sound] -/
#guard_msgs (whitespace := lax) in
#print axioms Hsm.C95_moves

/-- info: 'Hsm.C95_actions' depends on axioms: [propext, Classical.choice, Quot.sound] -/
#guard_msgs (whitespace := lax) in
#print axioms Hsm.C95_actions

/-- info: 'Hsm.C96_ends' depends on axioms: [propext, Classical.choice, Quot.sound] -/
#guard_msgs (whitespace := lax) in
#print axioms Hsm.C96_ends

/-- info: 'Hsm.C96_bounds' depends on axioms: [propext, Quot.sound] -/
#guard_msgs (whitespace := lax) in
#print axioms Hsm.C96_bounds

/-- info: 'Hsm.Ex.C96_tangle' depends on axioms: [propext, Classical.choice, Quot.sound] -/
#guard_msgs (whitespace := lax) in
#print axioms Hsm.Ex.C96_tangle

/-- info: 'Hsm.Ex.C96_refuted' depends on axioms: [propext, Classical.choice, Quot.sound] -/
#guard_msgs (whitespace := lax) in
#print axioms Hsm.Ex.C96_refuted

/-- info: 'Hsm.C97_event' depends on axioms: [propext, Classical.choice, Quot.sound] -/
#guard_msgs (whitespace := lax) in
#print axioms Hsm.C97_event

/-- info: 'Hsm.C97_step' depends on axioms: [propext, Classical.choice, Quot.sound] -/
#guard_msgs (whitespace := lax) in
#print axioms Hsm.C97_step

/-- info: 'Hsm.C97_history' depends on axioms: [propext, Classical.choice, Quot.sound] -/
#guard_msgs (whitespace := lax) in
#print axioms Hsm.C97_history

/-- info: 'Hsm.C97_undefined' depends on axioms: [propext, Classical.choice, Quot.sound] -/
#guard_msgs (whitespace := lax) in
#print axioms Hsm.C97_undefined

/-- info: 'Hsm.C97_reach' depends on axioms: [propext, Classical.choice, Quot.sound] -/
#guard_msgs (whitespace := lax) in
#print axioms Hsm.C97_reach

/-- info: 'Hsm.C97_conservative' depends on axioms: [propext, Quot.sound] -/
#guard_msgs (whitespace := lax) in
#print axioms Hsm.C97_conservative

/-- info: 'Hsm.C98_step' depends on axioms: [propext, Classical.choice, Quot.sound] -/
#guard_msgs (whitespace := lax) in
#print axioms Hsm.C98_step

/-- info: 'Hsm.C98_runs_partial' depends on axioms: [propext, Classical.choice, Quot.sound] -/
#guard_msgs (whitespace := lax) in
#print axioms Hsm.C98_runs_partial

/-- info: 'Hsm.C98_refuted' depends on axioms: [propext, Classical.choice, Quot.sound] -/
#guard_msgs (whitespace := lax) in
#print axioms Hsm.C98_refuted

/-- info: 'Hsm.C99_construct' depends on axioms: [propext, Classical.choice, Quot.sound] -/
#guard_msgs (whitespace := lax) in
#print axioms Hsm.C99_construct

/-- info: 'Hsm.C99_partial' depends on axioms: [propext, Classical.choice, Quot.sound] -/
#guard_msgs (whitespace := lax) in
#print axioms Hsm.C99_partial

/-- info: 'Hsm.C99_only_iterators' depends on axioms: [propext, Classical.choice, Quot.sound] -/
#guard_msgs (whitespace := lax) in
#print axioms Hsm.C99_only_iterators

/-- info: 'Hsm.C99_refuted' depends on axioms: [propext, Classical.choice, Quot.sound] -/
#guard_msgs (whitespace := lax) in
#print axioms Hsm.C99_refuted
