# Formal model of erikzenker/hsm in Lean 4

The subject is the header library in `/repo/include/hsm` (the modular headers
reached from `include/hsm/hsm.h`).  `include/hsm/gen/hsm.h`, the single file the
README tells users to download, is an older amalgamation: it has no `set`,
`process_event` returns `void`, its treatment of deferred events and its
internal-table flattening differ.  `Gen.lean` models the functions that differ
(C61–C63, C82, C91, C93, C97–C100, C102–C111, C113, C116, C118, C120, C122, C124, C128, half of C125, half of C129, half of C130, half of C131, C132, C135, C139, half of C133, half of C136, half of C137 and half of C101); all other
claims are about the modular headers.

## Trusted base

* Lean 4.33.0's kernel.
* The axioms reported by `#print axioms`: at most `propext`,
  `Classical.choice`, `Quot.sound`.  The file `Verif/Axioms.lean` prints them
  for every theorem named in `MANIFEST.json`.  No axiom is declared, and
  `sorry`, `admit`, `native_decide` and `bv_decide` are not used.
* That the model below says what the C++ says.  Every definition cites the
  lines it models; simplifications are stated there and summarised here.

## What is modelled

Model of the code (every definition cites the lines it models):

| Lean module | Code |
|---|---|
| `Verif/Basic.lean` | `remove_duplicates.h`, `index_map.h` (wrapping `size_t` arithmetic) |
| `Verif/Static.lean` | state/event/row types, `traits.h`, `resolve_state.h`, `has_action.h`, `collect_*.h`, `flatten_*.h`, `transition_table_traits.h`, `idx.h` |
| `Verif/Tables.lean` | `fill_dispatch_table.h`, `make_dispatch_tables.h`, `fill_unexpected_event_handler_tables.h`, the static checks of `sm`'s constructor |
| `Verif/Runtime.lean` | `sm.h`, `dispatch_table.h`, the handler part of `make_unexpected_event_handler_tables.h` |
| `Verif/Queue.lean` | `variant_queue.h` |
| `Verif/StatesMap.lean` | `make_states_map.h`, `to_pairs.h`, `to_map.h`, the state objects (`collect_states_recursive`, `unwrap_typeid_to_shared_ptr`) |
| `Verif/Narrow.lean` | the region loops of `sm.h` once more, with their `uint8_t` counter |
| `Verif/Reentrant.lean` | `sm.h` and `dispatch_table.h` once more, with callbacks that call the machine |
| `Verif/Gen.lean` | the functions of `gen/hsm.h` that differ from the modular headers |
| `Verif/ReentrantGen.lean` | the functions of `gen/hsm.h` once more, with callbacks that use the machine |
| `Verif/Log.lean` | `hsm::log` |
| `Verif/UniquePtr.lean` | `utils/dunique_ptr.h` |
| `Verif/Dsl.lean` | `state.h`, `event.h`, `front/transition_dsl.h`, `transition.h`, `front/transition_tuple.h` |
| `Verif/Actions.lean` | `chain_actions.h`, `create_state.h`, `reuse_state.h` |
| `Verif/Status.lean` | the text of `sm::status` |
| `Verif/Moving.lean` | the implicit move constructor and move assignment of `sm`, programs with several `sm` objects |
| `Verif/Helpers.lean` | `switch.h`, `for_each.h`, `for_each_idx.h`, `collect_actions.h`, the index functions of `idx.h` and `index_map.h` the runtime does not use |

Specification (used to state properties, never used by the model):

| Lean module | Contents |
|---|---|
| `Verif/Spec.lean` | rows in force, source and target locations, candidates at a location, spec-side traits |
| `Verif/SpecBridge.lean` | the lists the model collects (rows, internal rows, events, composites, states, callbacks, compile checks) are those of the specification |
| `Verif/SpecRun.lean` | locations of a running machine, runs of guards and actions, histories (`RunTo`, `Reach`) |
| `Verif/SpecStep.lean` | what handling an event does, as relations over declared rows and locations; `FirstEnabled`, the row that is to fire |
| `Verif/Moment.lean` | the points inside a running `process_event` |
| `Verif/Interp.lean` | the reference interpreter (C77) |
| `Verif/InterpGen.lean` | reference interpreter for the amalgamated header (C82) |
| `Verif/InterpR.lean` | reference interpreter for callbacks that use the machine (C83) |
| `Verif/Match.lean` | the check for two machines no client can tell apart (C85) |
| `Verif/Monitor.lean` | what clients observe, monitors, and the check of rules about it (C86) |
| `Verif/Shadow.lean` | refinement of what clients observe, and its check (C87) |
| `Verif/Return.lean` | whether a machine can always get somewhere, and its check (C88) |
| `Verif/Replace.lean` | a client with its values, served by one machine or another (C89) |
| `Verif/Abreast.lean` | several regions as automata side by side (C90) |
| `Verif/Headers.lean` | a check that both headers do the same (C91) |
| `Verif/Ledger.lean` | what a machine of the amalgamated header may do (C93) |
| `Verif/PropsReachR.lean` | what a machine can reach if callbacks use it (C94) |
| `Verif/PropsConsent.lean` | moves and actions have consent (C95) |
| `Verif/PropsEnding.lean` | calls from callbacks come to an end (C96) |
| `Verif/InterpGenR.lean` | reference interpreter for them |
| `Verif/PropsInterpGenR.lean` | the model follows it (C97) |
| `Verif/PropsHeadersR.lean` | both headers and callbacks that use the machine (C98) |
| `Verif/UpholdsG.lean` | invariants of the interpreter for nested calls under `gen/hsm.h` |
| `Verif/PropsSafeGenR.lean` | undefined behaviour and nested calls under `gen/hsm.h` (C99) |
| `Verif/PropsReachGenR.lean` | what machines of `gen/hsm.h` can reach (C100) |
| `Verif/PropsWork.lean` | how many callbacks a call can invoke (C101) |
| `Verif/PropsEndingGen.lean` | calls come to an end under the amalgamated header (C102) |
| `Verif/CheckerGen.lean` | spec: what a machine of the amalgamated header may do, and a checker |
| `Verif/PropsCheckerGen.lean` | the checker for the amalgamated header is sound and exact (C103) |
| `Verif/PropsCheckerDefer.lean` | where it is not exact (C103) |
| `Verif/MonitorGen.lean` | spec: what clients of the amalgamated header observe, and the check of rules about it (C104) |
| `Verif/PropsMonitorGen.lean` | rules about what clients of the amalgamated header observe can be checked (C104) |
| `Verif/ShadowGen.lean` | spec: whether clients can tell machines apart that are built with either header (C105) |
| `Verif/PropsShadowGen.lean` | whether a client can tell which header it includes can be decided (C105) |
| `Verif/PropsMovingGen.lean` | moving machine objects of the amalgamated header (C106) |
| `Verif/ReplaceGen.lean` | clients served with either header (spec of C107) |
| `Verif/PropsReplaceGen.lean` | replacing a machine by one of the other header (C107) |
| `Verif/ReturnGen.lean` | getting back somewhere with either header (spec of C108) |
| `Verif/PropsReturnGen.lean` | whether a machine of either header can always get somewhere (C108) |
| `Verif/PropsConsentGen.lean` | consent, declared callbacks and applicable rows with gen/hsm.h (C109, C110, C111) |
| `Verif/MatchR.lean` | spec: machines no client can tell apart, location by location |
| `Verif/PropsMatchR.lean` | such machines, for clients whose callbacks use the machine, either header (C112, C113) |
| `Verif/PropsAlikeR.lean` | order of rows and rows not needed, for clients whose callbacks use the machine (C114) |
| `Verif/Bench.lean` | the machines written by hand of the complex benchmark (C115) |
| `Verif/PropsAlikeGenR.lean` | order of rows and rows not needed, in the amalgamated header (C116) |
| `Verif/Sim.lean` | callbacks that do the same in related worlds |
| `Verif/Systems.lean` | several machines in one program |
| `Verif/PropsSystems.lean` | invariants of all machines of a program (C117) |
| `Verif/SystemsGen.lean` | several machines of the amalgamated header |
| `Verif/PropsSystemsGen.lean` | invariants of all of them (C118) |
| `Verif/InterpS.lean` | reference interpreter for several machines |
| `Verif/PropsInterpS.lean` | the model follows it (C119, C120) |
| `Verif/MatchS.lean` | what a client sees of several machines |
| `Verif/PropsMatchS.lean` | the check of C112 for all machines of a program (C121, C122) |
| `Verif/PropsAlikeS.lean` | tidied tables in programs of several machines (C123, C124) |
| `Verif/PropsHeadersS.lean` | both headers and several machines (C125) |
| `Verif/Layers.lean` | specification: programs in layers |
| `Verif/Trail.lean` | callbacks with the same outcomes in different worlds |
| `Verif/PropsLayers.lean` | programs in layers (C126, C127) |
| `Verif/LayersGen.lean` | specification: programs in layers, amalgamated header |
| `Verif/PropsLayersGen.lean` | programs in layers, amalgamated header (C128) |
| `Verif/Clear.lean` | callbacks that call nothing invalidate no iterators |
| `Verif/PropsLayersSafe.lean` | layered programs do nothing undefined (C129) |
| `Verif/PropsLayersCheck.lean` | checks for one machine in layered programs (C130) |
| `Verif/PropsLayersRules.lean` | rules about what is observed, in layered programs (C131) |
| `Verif/PropsPlacesGenR.lean` | places of machines that callbacks use, gen/hsm.h (C132) |
| `Verif/PropsWaiting.lean` | guards that wait for each other (C133) |
| `Verif/PropsRenameR.lean` | names do not matter in programs of several machines (C134) |
| `Verif/PropsRenameGen.lean` | names do not matter under gen/hsm.h (C135) |
| `Verif/PropsParts.lean` | programs as parts of larger programs, both headers (C136) |
| `Verif/PropsApart.lean` | calls of independent programs commute, both headers (C137) |
| `Verif/Asking.lean` | callbacks that ask machines while they run: model and specification (C138) |
| `Verif/PropsAsking.lean` | callbacks may ask (C138) |
| `Verif/AskingGen.lean` | callbacks that ask machines of the amalgamated header: model and specification (C139) |
| `Verif/PropsAskingGen.lean` | callbacks may ask, amalgamated header (C139) |
| `Verif/Checker.lean` | all clients at once: spots, walks and the exploration (C80) |

`*Lemmas.lean`, `Invariant.lean`, `StateInv.lean`, `Enabled.lean` (at most one row is `FirstEnabled`) and
`Complete.lean` are proofs;
`Props*.lean` and `Chronicle.lean` hold the property theorems together with the
vocabulary used only there.  `Machines.lean` has the concrete machines used as
examples and counterexamples.  `RepoTests.lean` and `UnitTests.lean` replay the repository's
integration and unit tests on the model (tests of the model, not proofs).  `Axioms.lean` is generated by
`tools/gen_axioms.py` and fails to build when a theorem named in `MANIFEST.json`
depends on anything but the standard axioms.

Ghost state: `SM.trace` (all callback invocations with the locations at that time)
and `SM.log` (all moves, with their place in the trace) are written by the model and
read by nothing in it.

### Modelling decisions

* **Machines.** A C++ state type is a name; its static members (transition
  table, internal table, `on_entry`, `on_exit`, `defer_events`,
  `on_unexpected_event`, default-constructibility) are a record looked up by
  name.  A machine is that lookup function plus the root name.  States as they
  occur in rows keep the difference between `state_t<X>` and `entry_t<...>`
  etc., because the library compares them by type.
* **Finite nesting.** The C++ templates only instantiate when composites are
  not nested in themselves.  A machine carries a rank; flattening recurses on
  it, and the well-formedness predicate says that ranks decrease, which makes
  the recursion the C++ recursion.
* **Callbacks** are arbitrary functions of an arbitrary user world `W` and an
  arbitrary event payload `P`; they may change both, return, or throw.  Which
  callback is invoked with which event, source object, target object and
  dependency is recorded in a trace.  Callbacks that call back into the same
  machine are not modelled in the base model.
* **Undefined behaviour** is an outcome (`Res.ub`): reading an uninitialised
  slot of `m_currentCombinedState`, indexing an array or vector out of bounds,
  using a null transition, dereferencing a state object that does not exist.
* **Exceptions** are an outcome that carries the machine as it was when the
  exception left the library, because the machine object lives on.
* **Non-termination** of the anonymous loop: the model takes fuel and reports
  `Res.timeout`; theorems hold for every fuel, and termination theorems give a
  sufficient amount.
* **Compile-time rejection** is an outcome of building the tables
  (`BuildErr.reject`), distinct from undefined behaviour while building
  (`BuildErr.ub`).
* **Indices** are natural numbers, except in `index_of`, which is computed
  modulo 2^64 as in the code; sizes are assumed below 2^64.
* **Regions** are counted with `uint8_t`: `set`/`is` reduce their argument
  modulo 256; the region loops of `Runtime.lean` run over `0, …, n-1`, which
  `Narrow.lean` proves to be what the 8 bit counter does for at most 255 regions
  (C56); with more the C++ loop does not end.
* **Callbacks** in `Runtime.lean` change their event and the user's world, not the
  machine.  In `Reentrant.lean` they are programs that may also call
  `process_event`, `set` and `set_dependency` on it; such calls run at once, nested
  (C57-C59).  `stepR_lift` proves that the two models agree for callbacks without
  calls.  A loop over a table cell whose deque was pushed to is undefined when it
  goes on (`UB.iterator`); references into a deque survive a push.
* **Several machines.** `Systems.lean` has any number of machine objects whose callbacks use
  one another (C117), `SystemsGen.lean` the same for the amalgamated header (C118).  Objects have
  no static data that changes, so the rest of the program, other machines included, is part of
  the world of the one that runs.  `InterpS.lean` has the reference interpreter (C119, C120).
* Callback *types* and callback *values* are identified (the library removes
  duplicate internal rows by type).

### Not modelled

`collect_guards.h` (does not instantiate), the C++ text of error messages,
Boost.Hana/mp11 (their documented list semantics are used), evaluation order
and lifetime inside user callbacks, threads
(the library has none; calls are sequential).

## Properties and how they are treated

| Property | Treatment |
|---|---|
| C01 | The table builder is modelled push by push; theorem: the resulting cell equals a declaratively specified candidate list. |
| C02 | Arithmetic on the index model; injectivity and decoding. |
| C03 | Invariant over all histories. |
| C04 | Direct characterisation of `set`, then `is`. |
| C05 | `_partial`: invariant proof that no history of a *safe* machine reaches `ub`, where safe means: scopes real (C06), root has the largest number of regions, all composites have the same number of regions if history is used, nobody defers the none event, objects default-constructible.  For the general claim: machine-checked counterexamples. |
| C06 | Equivalence proved on the builder. |
| C07-C10, C15, C18 | Characterisation of the per-region loop and of `process_event`. |
| C11 | Proved in full.  The `on_entry` that can run when the internal row belongs to a composite child is that of the composite's first initial state, not of the state the row belongs to. |
| C12 | Proved on the resolved callback list and the executing function. |
| C13, C14 | Exception outcomes of the loops. |
| C16 | From C01. |
| C17 | Refuted by a witness; `_partial` is C16's statement for depth one. |
| C19, C20, C43, C45 | Invariants/relations over histories. |
| C21 | Refuted (a replayed event that nobody accepts is dropped silently); `_partial`: it is kept while it is only re-deferred, and a replay either hands it to a row, re-queues it, or drops it. |
| C22 | Loop invariant of the anonymous loop. |
| C23 | Refuted for several regions; `_partial` when every region ends where there are anonymous rows and no replayed event is deferred again after a region accepted it. |
| C24 | Rank argument; divergence by induction on fuel. |
| C25 | Ghost log over histories, invariant. |
| C26 | Refuted; `_partial`. `C26_exact` says, without conditions, what is remembered instead. |
| C27 | Refuted (old rows stay as fall-backs and the unexpected-event handler keeps the old dependency); `_partial` in C28. |
| C28 | Invariant over histories. |
| C29, C30 | Refuted for initial/direct sources and entry/direct/history targets; `_partial` for plain ones. |
| C31, C32 | Induction over the flattening. |
| C33 | Refuted; `_partial` for region 0 and the region count. |
| C34 | Invariant. |
| C35 | Queue refinement to a list. |
| C36 | Heap model with ownership invariant. |
| C37 | Model of the operator overloads. |
| C38, C39 | Models of the three action adaptors. |
| C40, C47 | Lists. |
| C41, C42 | Trace/location invariants over histories. |
| C44 | Rendering model and injectivity. |
| C46 | Characterisation of construction. |
| C48 | Refuted: a composite led into by `k` rows is flattened `k` times, so its guards are asked `k` times; `_partial` where each composite is led into by at most one row. |
| C49 | Soundness (C07) and completeness of the relations of `SpecStep`; uniqueness follows because the model is a function. |
| C50 | Order of the flattened tables by induction over the nesting, carried through filtering and duplicate removal to the candidate list, then to the row that fires. |
| C51 | Refuted for composites entered only through pseudo states; `_partial` for the others. |
| C52 | Refuted; `_partial` when a row leading into the composite follows the row on it; `C52_outer_first` shows that otherwise the outer row goes first. |
| C53 | Exact answer of `is(r,P,S)`; refuted as claimed, `_partial` for regions in the composite of region 0. |
| C54 | `construct` is rejected by the compiler iff `Compiles` fails, for every machine. |
| C55 | Both lists that are zipped are computed separately; the map's content by induction, its use from C41. |
| C56 | Loops with an 8 bit counter; `_partial` for at most 255 regions (they are the list loops of `Runtime.lean`), refuted otherwise: `C56_hangs`, `C56_refuted`. |
| C57 | `C57_places` by an invariant over programs and nesting depth; `C57_conservative` ties the model to `Runtime.lean`. |
| C58 | Refuted (`C58_refuted`, a guard that sends an event); `_partial` if guards make no calls, actions and handler may. |
| C59 | Refuted (`C59_refuted`, a guard that calls `set_dependency` and says no); `_partial` if guards make no calls, or no callback calls `set_dependency`; without restrictions, `C59_only_iterators`: nothing else can go wrong. |
| C60 | Refuted (`C60_refuted`, an action that sends an event); `_partial` for callbacks without calls, where it is C41. |
| C61 | Refuted three times (`C61_refuted_deferral`, `_internal`, `_order`); `_partial`: equal reachable states for machines without deferral and with plain internal rows; with deferral `C61_process` says what a call does. |
| C62 | Refuted (`C62_refuted_order`, `C62_refuted_effect`); `_partial`: at most one event leaves the queue per call, the oldest; `C62_all_partial` for all machines and callbacks. |
| C63 | As C05: refuted by `wide`, `_partial` for safe machines with plain internal rows; `C63_all_partial` for all safe machines of this header (`SafeG`). |
| C64 | `Reaches`, a relation over the declared rows; an invariant over locations, history memory, queue, trace and log. `C64_closed` reduces it to a check of the tables. |
| C65 | `_partial` for one region, no history, no anonymous rows: guards answer what the environment decides, and each step is a run of the relations of `SpecStep`, which `C49_returns` turns into a call. Each of the three conditions is needed: `C65_refuted_anonymous`, `C65_refuted_history` and `C65_refuted_regions` give machines with a location that no callbacks and no events reach, by invariants of the reference interpreter that hold for all callbacks. |
| C66 | An invariant over programs and nesting depth (`Keeps`), with the source of each call recorded (`By`); `C66_elsewhere` shows that its condition on guards is needed. |
| C67 | A simulation between two machines that offer the same candidates at every location (`Alike`), which keeps results, exceptions and undefined behaviour (`Alike.run`); exchanging independent rows gives such a machine (`Exchange.alike`). `C67_readings` and `C67_initials` show that the two conditions are needed. |
| C68 | The table after any history has `(setDeps ops + 1) * n` entries per cell (`C68_size`); guards are counted in the trace against that (`C68_bound`, `C68_exact`). `C68_refuted` gives a machine on which every proposed bound fails. |
| C69 | Partial. A simulation (`Later`) between the nested run and the client that makes the calls afterwards; it holds with one region, no anonymous rows, no deferred events, and if only the last callback of a row sends (`C69_tail_partial`, `C69_back_partial`, `C69_partial`). The claim without conditions is false; four theorems `C69_refuted_*` each drop one condition and show a machine that parts. |
| C70 | Partial. The machine without the row is `Alike` the machine with it on a set of locations closed under its rows (`Pruned.alike`), if the row does not lead into a composite in use and mentions no state first. The claim for every row that cannot fire is false: a row into a composite enters the rows of the composite once more, and their guards are called once more (`C70_refuted`). |
| C71 | `Machine.behave` (PropsPlain) is an automaton over declared rows (`rowsAt`, `tryRows`, `answer`); `plain_event` builds the `EventRun` it predicts, C49 (exactness and uniqueness) does the rest. `C71_flat` says what `rowsAt` is for a single table. |
| C72 | Programs.lean transcribes the machines of example/, README, integration/ and benchmark/; `C72_automaton` replaces the automaton of C71 by one written by hand after a finite check of its steps. Safety by C05_partial after evaluating its conditions; the two test machines outside it reach undefined behaviour (`C72_unsafe`). The benchmark ring never leaves its last state, because its loop does not send `e51` (`C72_ring_stuck`). |
| C73 | PropsPlay.lean: the interpreter `Machine.play` (candidates in order; no tables, indices, regions, queue, memory, fuel) and `playOps` for whole histories. `C73_event` shows by unfolding `processEvent` that it has the outcome of `play` with any fuel, also for throwing and undefined callbacks; `C73_history` extends it to all sequences of calls. `C73_vending` uses it for an invariant of a machine whose guard depends on what actions did. Needs existing state objects (`Populated`). |
| C74 | PropsInside.lean: `M.alone Q` is `sm<Q>`. The rows in force are read by induction on nesting (`Embeds.induct`): outer rows, each entrance followed by the rows of `sm<Q>`. `C74_candidates`: inside `Q` the candidates for an event no outer row takes are those of `sm<Q>`, external ones as many times as `Q` has entrances (any machine, also with deferral and regions). With one entrance `C74_event`, `C74_runs`, `C74_entered` (via C73) show equal runs for arbitrary callbacks; with any number of entrances `C74_steady`, `C74_behave` show equal answers and locations for guards that always answer the same, guards being asked more often. Without the conditions it is false: `C74_refuted_twice` (two entrances, guard that changes its mind between two tries in one event), `C74_refuted_outer` (an outer row takes the event), `C74_refuted_handler` (`Q`'s unexpected-event handler is not called inside another machine). |
| C75 | PropsCount.lean: `ways` counts the paths in the graph of rows leading into composites. `C75_rows`, `C75_tries`, `C75_internal` count rows in the flattened tables and among the candidates, `C75_asked`/`C75_asked_throw` (external rows) and `C75_asked_internal`/`C75_asked_written` (internal rows) the guard calls of a run (C07 and `FalseRun`), `C75_exponential` is the family with `2 ^ n` copies. This is the exact form of C48; `C17_exact` in the same file is that of C17. |
| C76 | PropsRename.lean: a one-to-one renaming (`Ren.Faithful`) of states, callbacks and events is carried through every definition of the model (`Renamed.*`). `C76_construct`, `C76_step` and `C76_event` say that constructor and calls correspond including exceptions and undefined behaviour, `C76_runs` and `C76_runAll` lift this to histories, `C76_observe` to `is` and `status`. No hypothesis on the machine. `C76_refuted_merged`: one-to-one on callbacks is needed. |
| C77 | Interp.lean (specification) is the interpreter: `Conf` and `receive`/`exec`. PropsInterp.lean: `Depicts M c s` says configuration and object show the same; each function of the model is simulated (`Depicts.*`). `C77_construct`, `C77_event`, `C77_step`, `C77_history` (deterministic runs), `C77_reach` (every object a client can hold, with the dependencies it was given), `C77_undefined` (same kind of undefined behaviour, same timeouts). `C77_fuel`: more fuel never changes an outcome other than running out. |
| C78 | Helpers.lean: direct model and induction on the lists. `Swept` describes a sweep by positions. `getGuardIdx` is not modelled: it cannot be instantiated (`at_c<3>` of a row object). |
| C79 | PropsVerdict.lean: `script` is a client whose callbacks read their verdicts from a list. Every function of the reference interpreter is followed by its scripted run (`Follows`), for arbitrary clients; C77 carries this to the model. Two clients with comparable verdict lists have the same scripted run. `C79` (places, memory, waiting events, calls), `C79_told` (answers and exceptions), `C79_smooth` (no refusals, no exceptions). `C79_verdicts_needed`: the hypothesis on the verdicts cannot be dropped. |
| C80 | Checker.lean (specification) is the non-deterministic description: `Spot`, `next`, `moves` (with calls of `set` from a given list), `Walk`, and the evaluable `explore`, `closed`, `safe`. PropsChecker.lean: every outcome of the reference interpreter is among those of the description (`Among`), C77 carries this to the model. `C80_places`, `C80_undefined`, `C80_closed`, `C80_safe`, `C80_defined` (soundness, deferral included); `C80_found` (the exploration ends for every machine: there are finitely many spots). Conversely each walk is replayed by a scripted client (`Realises`, `Arrives`) if nothing is deferred or there is one region only: `C80_visited`, `C80_listed`, `C80_exact`. This is an exact answer to C05 for such machines. `C80_defer_needed`: with deferral and two regions a safe machine is rejected. `C80_set_needed`: `set` with other arguments can leave the list. |
| C81 | Moving.lean models the implicit move operations member by member and programs that create, move, assign, destroy and call any number of `sm` objects (`Heap.run`); the specification (`Fleet.run`) has machines that never move and variables that stand for them. `C81_same`: same replies, same reason to stop, same machines, for every program that does not use what it moved away. `C81_life`: every machine is in a state it can reach by the calls it got (`life`), so all theorems about histories apply. `C81_asked`, `C81_left`, `C81_swapped`: what a moved-from object answers and does; `C81_use_after_move`: it may call a null handler. `set_dependency` fills its tables with rows whose pointers to state objects are null (`stepOn`): `C81_gone` says which objects these are, `C81_silent` that they call no guard or action, `C81_refilled` that they take rows that call nothing and that everything else is undefined. |
| C82 | InterpGen.lean (specification): `intRowsG`, `eventsG`, `candsG`, `CompilesG`, `ScopesRealG` and the event rules that differ from Interp.lean. PropsInterpGen.lean: `DepictsG` between objects of Gen.lean and configurations; `C82_construct`, `C82_event`, `C82_step`, `C82_history`, `C82_undefined`, `C82_reach`. The lemmas on moves, guards and actions are shared with C77 (`Portrait`). PropsGenAll.lean derives the queue law and safety for all machines of this header (`C62_all_partial`, `C63_all_partial`), without plain internal rows and without conditions on callbacks. |
| C83 | InterpR.lean (specification): `enact` runs a callback program with `call` for the machine; `attemptR` reports `iterator` if a guard said no and the number of dependencies has changed. PropsInterpR.lean: `Echo` (inner calls agree) gives `C83_event`; induction on the nesting depth gives `C83_step`, then `C83_history`, `C83_undefined`, `C83_reach`; `cell_same` links the length of the dispatch table cell to the number of dependencies. `C83_conservative`: with lifted callbacks it is C77's interpreter. |
| C84 | Checker.lean (specification): `within k n`, `calm k S`, `Spins`. PropsHang.lean: `C84_returns` from the walks of C80 (the interpreter's timeout is only possible where `within` fails); `C84_either` (bound or endless rounds, finitely many spots); `C84_hangs`: endless rounds repeat a spot, the answers of the guards along the cycle are repeated for ever by the client `endless`; `C84_exact`, `C84_uniform`. |
| C85 | Spec: Match.lean (`Machine.same`, on pairs of spots of Checker.lean; `Sem.seen`, `Call.seen`). Proof: PropsMatch.lean, simulation of the reference interpreter (C77) with itself for the two machines; the model of the code follows the interpreter on both sides. Examples: a nested lamp and its flat version (clients that do not look at states), the demo machine with rows rearranged and a dead row (all clients), and two changes the check refuses together with a client that sees them. |
| C86 | Spec: Monitor.lean (`Sign`, `Monitor`, `Observed`: what a client observes; `Machine.seeNext`, `Machine.Sees`, `seesAll`, `keepsRules`, `watch`: all clients at once, with the waiting events and the monitor). Proof: PropsMonitor.lean. Soundness: the reference interpreter (C77) stays among the possibilities. Completeness: every possibility is realised by a client whose callbacks read their answers from a script; since the waiting events are part of what is followed, no condition on deferral or regions is needed. Termination (`C86_found`): finitely many spots, finite monitor, nothing deferred; with deferral the queue can grow without bound, then only `C86_exact` (for the inductive `Sees`) and `C86_broken` apply. Examples: a wicket whose actions alternate, a rule about failed actions that is refused together with a client, and the turnstile of example/turnstile/main.cpp (`C86_turnstile`). |
| C87 | Spec: Shadow.lean (`Refines`; `Machine.shadow`: the monitor that follows all that the second machine may be doing while it hears the first; `shadowed`, `followed`). Proof: PropsShadow.lean. The shadow is a monitor in the sense of C86; what may happen does not depend on who listens (`seeNext_tell`), so a monitor that records everything gives observations of the second machine for each prospect (`C87_shadow`), and every observation of the second is among the prospects (`C87_nowhere`). Termination (`C87_found`): finitely many prospects, and each silent run of rounds is bounded. Examples: the nested and the flat lamp both ways for a client that does not look at states, and apart for one that does; a stop left by an anonymous row, which the step-by-step comparison of C85 rejects; the same with an action before the stop, which shows when it throws. |
| C88 | Spec: Return.lean (`Recovers`; the check `Machine.homing`/`settled`/`returns`: backward steps within the list of C86). Proof: PropsReturn.lean. The signs of one step are a prefix code of its outcomes (`Coded`, `seeNext_coded`), so ways do not part without a sign (`path_tree`) and what was heard determines the place (`Sees.heard_determines`, `C88_determines`) and a longer observation is a longer way (`Sees.path_of_heard`). What may happen does not depend on who listens (C87), so ways carry over between the list without a monitor and observations. Examples: wicket, a fuse that blows for good, turnstile, cdplayer. |
| C89 | Spec: Replace.lean (`Served`: a client with its callbacks and world makes requests; `Call.remembered`: a call with the value of the event). Proof: PropsReplace.lean. The value an event has and the client's world are determined by what was observed (`Mind`, `Acts`); conversely a way through the machine on which each callback does what the client's does is taken (`Complies`, `Goes`). `C87` gives the way through the second machine. Examples: the lamp nested and flat for every client; a client of the shuttle whose action throws; two machines a client tells apart by sending `none`. |
| C90 | Spec: Abreast.lean (`Machine.Abreast`; `together`: one event in a list of locations; `march`: a sequence of events), on top of the automaton of C71 (`answer`, `behave`). Proof: PropsAbreast.lean. `steady_region` finds the run of one region, `steady_loop` joins the regions, `steady_event` gives the event's run; uniqueness (C49) makes it the run of the code. `march_places` shows that the list of locations is the list of the single automata's locations. Examples: a machine with a composite of two regions; a deferred event and a composite with fewer regions each break the claim. |
| C91 | Spec: Headers.lean (`Machine.triable`, `alikeAt`, `headersAlike`), over the spots of the checker (C80). Proof: PropsHeaders.lean. `attempt_triable` shows that rows after one without guard do not matter, `visit_others` that a region's row moves only that region, so what holds at the start of a sweep holds when its turn comes; `receive_alike` then equates the two interpreters (C77, C82) on the walks, and `Beside.step` carries this to the two models of the code. `C91_covers`: the check accepts what C61_partial covers. Examples: an accepted machine outside of C61_partial; the machines of C61_refuted_internal and C61_refuted_order are refused. The check is sound, not complete. |
| C92 | Model: Log.lean (`logLine`, `Sem.withLog`: the lines are a second part of the world, only `log` appends to it). Spec: PropsLog.lean (`lineOf`, `Tells`, `Says`). `C92_output` (any use of `log`): the output is the line of each call in order, by an invariant over all operations. `C92_rows`: from the chronicle (C41), one line for each move, giving the source the row was found under, the event, and the declared destination. `C92_partial`: the states named are those left and entered, if no row is declared on a composite, none leads to a history, the destinations are default constructible and exit actions do not throw. False without any one of these: `C92_refuted_composite`, `C92_refuted_history`, `C92_refuted_pointer`, `C92_refuted_exit`. |
| C93 | Spec: Ledger.lean (`Deed.Fair`, `Ledger`, `Recalled`), in terms of declarations and named places. `C93_ledger`: the interpreter of C82 keeps a ledger (`Account`, by induction over each of its functions), and machine objects of the code depict its configurations (`C82_step`). `C93_calls`: read off the ledger, each call is warranted by a row in force, and no action runs before the guard of its row has said yes. `C93_still`: without a row for an event nothing moves. Counterpart for the modular headers: C41, C26_exact. |
| C94 | Spec in PropsReachR.lean: `ReachesR` (least set closed under the declared rows), `AliveR`. Proved with the invariant `WithinR` in the framework for nested calls (`Keeps`, PropsReentrant.lean), which now also tracks that the guard of an entry can say yes (`Passes`) and which events are sent. An outer call that goes on after an inner one moved its region uses an entry of a location that was reached earlier, so its destination is within reach too. `C94_closed` is checked on the tables by evaluation. |
| C95 | Spec in PropsConsent.lean: `Use`, `MoveHasConsent`, `ActionHasConsent`, in terms of declared rows (`C`: which rows apply where; here `M.cands`), the trace of callbacks and the log of moves. The row applies where the region has been (`Visited`; where it is at the moment of the move only if guards do not use the machine, C58). No condition on the scopes. Invariant `Agreed` in the framework for nested calls (PropsReentrant.lean), which now also says that records only grow (`Grows`), that a guard has just said yes when a row fires (`Asked`), and which callbacks of the row have been done (`DoneAll`). Counterpart without nested calls: C41, C60. |
| C96 | Spec in PropsEnding.lean: `Lower`, `Prog.Below`, `SemR.Downward`. Proved for the reference interpreter for nested calls (C83) by well-founded induction on the ranks of the event and of all waiting events, in the Dershowitz-Manna order on multisets (Mathlib), and carried over to the model with C83. `C96_bounds` shows that the two bounds of the model (anonymous rounds in a row, depth of nesting) do not matter once a call ends. `C96_tangle` is a machine with regions and deferral that never ends. |
| C97 | Model in ReentrantGen.lean, interpreter in InterpGenR.lean. The lemmas of C83 are generic over the table contents (`Portrait`, `EchoOn`); the functions that differ are done as in C82. `C97_history` for call sequences, `C97_undefined` for the exact cases of undefined behaviour, `C97_conservative` for callbacks that do not call. |
| C98 | Spec in PropsHeadersR.lean: `Prog.Incurious`, `SemR.KeepsNone`. `C98_step` equates the steps of the two models state by state; `C98_runs_partial` the reachable objects. Partial: false for machines that defer events (`C98_refuted`: the amalgamated header replays at other times, and from within callbacks the difference is seen in one call) and for internal rows that are not plain (C61). |
| C99 | Spec `SafeGR` in PropsSafeGenR.lean. UpholdsG.lean is a framework of invariants for the interpreter of C97; the invariant is the one of C63 (`Firm`). Refuted in general (`C99_refuted`): a guard that calls `set_dependency` and says no leaves the loop with an invalidated iterator. `C99_partial`: guards make no calls, or no callback calls `set_dependency`. `C99_only_iterators`: otherwise nothing else goes wrong. |
| C100 | Spec in PropsReachGenR.lean: `ReachesG`, `AliveG`, `ClosedG`. An invariant of the interpreter of C97 by UpholdsG.lean, carried over to the model with C97. |
| C101 | Spec in PropsWork.lean: `Choices` (the bound N), `Machine.passes`, `Machine.turns`, `Invokes`. Costs are added up function by function (`Costs`), given that the tables are those of the dependencies so far. An example attains the bound in both headers. |
| C102 | Spec in PropsEndingGen.lean: `AcyclicG`, `SemR.DownwardG`. As C96, on the reference interpreters of C82 and C97: well-founded induction on the multiset of ranks of the event and all waiting events. `C102_mesh` and `C102_spin` show that the two conditions are needed. |
| C103 | Spec in CheckerGen.lean: `nextG`, `WalkG`, `closedG`, `safeG`, `calmG`, `SpinsG`, `exploreG`. As C80 and C84, on the reference interpreter of C82: every outcome of the interpreter is among the possibilities listed, and conversely the answers of a scripted client realise each possibility. For an endless walk the script is an infinite repetition (`endless`). PropsCheckerDefer.lean: `C103_defer_needed`, the counterexample of C80 with two regions and deferral. |
| C104 | Spec: MonitorGen.lean (`ObservedG`: what a client observes; `seeNextG`, `SeesG`, `seesAllG`, `watchG`; signs, monitors and `keepsRules` are those of Monitor.lean). Proof: PropsMonitorGen.lean, as C86, on the reference interpreter of C82. `process_event` returns nothing in that header: the sign `answer true` stands for its return. Examples: the wicket of C86; a rule that every client of the modular headers observes and some client of the amalgamated header does not (`innerG_attentive`, `innerG_inattentive`); a deferred event that is handled after a refusal (`waiting_not_meek`). |
| C105 | Spec: ShadowGen.lean (`Header`, `Sign.look`, `ObservedIn`, `RefinesIn`, `foreseeIn`, `tailing`, `shadowIn`; `shadowed` and `followed` are those of Shadow.lean). Proof: PropsShadowGen.lean. The part about shadows speaks of any step function on prospects (`Trail`, `MayBe`, `Reckons`); C86 and C104 connect it with the two models. C91 is a simpler check that can refuse although no client can tell (`innerIdle`). Examples: the wicket, the same with both headers; `innerG`, not the same; `innerLoop`, the repaired program; `waiting`, where the amalgamated header handles a deferred event after a refusal. |
| C106 | Model and spec: Moving.lean (`stepOnG`, `Brand.gen`; `Heap`, `Fleet` and `life` are shared with C81). Proof: PropsMovingGen.lean. `RunToG.handlers` says that handlers stay bound to the dependency of the constructor, for all callbacks. A deferred event of an object that was moved away is taken out of the queue and deferred again by the same call, as gen/hsm.h processes deferred events after deferring. What such an object says about where it is: C81_asked, as the observers are the same. |
| C107 | Spec: ReplaceGen.lean (`ServedG`, `ServedIn`, `Reply.look`), on top of `RefinesIn` (ShadowGen.lean). Proof: PropsReplaceGen.lean, which follows the reference interpreter of gen/hsm.h (C82) with what the client has in mind (`Mind` of PropsReplace.lean); `Minds.quiet` says that none events keep their value. What process_event returns is not compared. `Ex.abacus`: with a client that changes none events the headers differ although they refine each other. |
| C108 | Spec: ReturnGen.lean (`RecoversIn`; the procedure `homingIn`, `settledIn`, `returnsIn` works on the list `watchIn` of ShadowGen.lean). Proof: PropsReturnGen.lean: outcomes of one step are told apart by what is heard (`seeNextG_coded`), so the paths of all clients form a tree and a path that continues what was heard continues the path. `Ex.wicket` and the two example programs recover with gen/hsm.h, `Ex.fuse` does not. |
| C109 | The spec of C95, `MoveHasConsent` and `ActionHasConsent` (PropsConsent.lean), read with the candidates `candsG` of gen/hsm.h. The loop over the entries is the same code in both headers, so the invariant `Agreed` is shown once for it (`KeepsLoop.agreed`); PropsConsentGen.lean adds the anonymous and the deferred rounds of gen/hsm.h and its `set_dependency` (`KeepsG`). |
| C110 | Spec `DeclaredG` (PropsConsentGen.lean) on single calls of the trace. `C110_declared` by the invariant `SuppliedG` (every cell of the table holds only entries of declared rows with dependencies the machine was given). `C110_elsewhere`: the condition on guards is needed. |
| C111 | Refuted (`C111_refuted`, a guard that sends an event); `_partial` if guards make no calls, actions and handler may. PropsConsentGen.lean. |
| C112 | Spec: MatchR.lean (`like`, made for a way to find candidates, so that it serves both headers; `SemR.seen`, `Abreast`). Proof: PropsMatchR.lean, a simulation between the interpreter of C83 on one machine and on the other (`Peers`: slots and memory paired one by one, everything else equal), carried to the model by C83. `C112_needed` gives two machines C85 accepts that a guard which sends an event tells apart: the composite remembers the state the event took it to. |
| C113 | As C112, over the interpreter of C97; places, callbacks, candidates and the handler are shared with C112. Clients whose callbacks do not use the machine are the special case `Sem.lift` (C97_conservative). |
| C114 | PropsAlikeR.lean: machines that are alike (`Alike`, Alike.lean, as for C67 and C70) satisfy what the check of C112 establishes (`Likes`), each location being paired with itself and the events being those both know (`Alike.likes`); the simulation of C112, restated for any set of calls that `Suits`, does the rest. `Indistinct` says what is seen. C67_readings, C67_initials and C70_refuted show that the provisos are needed already for clients that leave the machine alone. |
| C115 | Bench.lean models the two classes written by hand (`switchHandle`, `variantHandle`) with guard and action as parameters (`Own`). The ring is that of C72; C73 gives what the model of the library does with it for arbitrary callbacks (`ring_runs`). `C115_lap_partial`, `C115_variant_partial`; refuted by `C115_refuted_switch`, `C115_refuted_guard`, `C115_refuted_lap`. |
| C116 | PropsAlikeGenR.lean: the candidates of the amalgamated header are those of the modular one but for the internal rows; `candsG_exch` and `candsG_pru` show that they stay the same, so that the machines are alike (`AlikeOn`, here for `candsG`) and the simulation of C113 applies. C116_compete: two rows with the same source and event, exchanged. |
| C117 | Systems.lean: a program is the user's world and the members of every machine; while machine i runs the rest of the program is its world, so that `processEventR` of Reentrant.lean is used as it is, and a call made by a callback stores the machine, makes the call on the machine called, and fetches it again (`nested`, `stepS`). PropsSystems.lean: an invariant proved of one machine with callbacks that use it (`Keeps`) is one of every machine of a program (`stepS_keeps`): with the invariant of the others as part of the invariant of the machine that runs, by induction on how deep calls nest. Instances: C117_places (C57), C117_moves and C117_actions (C95), C117_declared (C66), C117_sources (C58, the condition only on the machine the move is one of), C117_only_iterators and C117_safe (C59), C117_untouched. C117_alone is a simulation (Sim.lean). C117_round_trip: the condition of C117_safe is about callbacks of all machines; a machine none of whose callbacks uses it gets undefined behaviour from another one that calls back. |
| C118 | SystemsGen.lean: as Systems.lean, with `processEventGR` and `setDependencyG`. PropsSystemsGen.lean: an invariant proved of one machine (`KeepsG`) is one of every machine of a program (`stepGS_keeps`). Instances: C118_moves and C118_actions (C109), C118_declared (C110), C118_sources (C111), C118_untouched. For C118_only_iterators and C118_safe a machine is in good order (`Hale`) if it depicts a sturdy configuration of the interpreter (C97, C99); `KeepsG.hale` shows that each step of the code keeps this. C118_alone is a simulation. C118_round_trip as C117_round_trip. |
| C119 | Interpreter in InterpS.lean: the one of C83 for each machine, the other machines being part of its world. The lemmas of C83 are generic over how the worlds of model and interpreter are related (`Portrait` with a relation `U`, `SemR.Kin`); here the relation says that every other machine object is a picture of its configuration (`Ensemble`). Induction on the depth of nesting. |
| C120 | As C119, with the interpreter of C97 (`execGS`). |
| C121 | The lemmas of C112 are generic over how the rest of the two programs is related (`Peers` with a relation `U`, `SemR.Akin`); here the relation says that every other machine cannot be told apart from its replacement (`Troupe`), on the configurations of the interpreter of C119. Induction on the depth of nesting, then C119 on both sides. |
| C122 | As C121, with the check of C113 and the interpreter of C120. |
| C123 | Machines whose tables were tidied are alike at the locations that matter (C67, C70), hence pair each location with itself in the sense of C112; then as C121. |
| C124 | As C123, with C116. |
| C125 | C98 for several machines: its lemmas are generic over which calls are made in which world (`Mute`, `SemR.Polite`); here a call names the machine it is for. Induction on the depth of nesting. |
| C126 | Layers.lean says what a callback and all it calls amount to (`SProg.effect`), and so what a machine looks like on its own (`SemS.solo`). Trail.lean carries outcomes of callbacks through the library code as Sim.lean carries programs; induction on the depth of nesting. |
| C127 | From C126, with outcomes that may not run out of fuel, and C24 for each machine. |
| C128 | As C126 and C127, with C102 for each machine. |
| C129 | A machine of such a program behaves as on its own with callbacks that call nothing (C126, C128), and such callbacks invalidate no iterator (Clear.lean); all other undefined behaviour is excluded by C117 and C118, timeouts by C127 and C128. |
| C130 | A machine of a layered program is tracked by the machine on its own (C126, C128) with callbacks that throw where those of the program do something undefined (`Sem.made`), so that C80_defined applies; the calls on it that callbacks make are of the kind required (`Led`). Induction on the depth of nesting. |
| C131 | By C130_alone (and its counterpart for gen/hsm.h) the members of a machine, its record included, are those after a history of the machine on its own with the same kind of calls; such a history is one that C86 and C104 speak of, since the record only grows. A monitor that ignores all but callbacks hears the same in the signs and in the record. |
| C132 | An invariant kept by every step of the loops: what is remembered is what the moves say, entries of the table come from candidates, slots hold numbers of locations, and so they did at each callback and each move. What a history row leads to is the source of an earlier move or an initial state. For several machines the same invariant holds of each, with the rest of the program as its world. |
| C133 | Nothing is changed before the first guard is asked, so each nested call finds the machines as they were: induction on the depth. The first entry of a table cell belongs to the first candidate, by an invariant of the table. The two machines are a concrete case. |
| C134 | A relation between machine objects with the same numbers, in related worlds, is kept by every function of the model; calls from callbacks are related by induction on the depth of nesting. What is the same about tables and indices is taken from C76. The counterpart of a client is constructed from maps back to the old names. |
| C135 | The functions of gen/hsm.h that differ are related under renaming one by one, internal rows and tables first; the rest is taken from C76 and C134. |
| C136 | The two programs do the same in related worlds (Sim.lean); calls from callbacks are related by induction on the depth of nesting. Machines outside the part that do not call it form a part of their own, so that their calls leave the first part alone. |
| C137 | Each call is a call of its program by itself that leaves the rest alone (C136); the two orders write the same to disjoint places. For sequences: a sequence of calls of both programs splits into one of each, and any two such join in any order. |
| C138 | A question is a call of a wire to a machine that leaves the program as it is, and the callback goes on with the answer (`C138_ask`), which the members of the machine asked determine (`C138_answer`, `C138_region`, `C138_status`); the invariants of C117 are kept by calls and trivially by questions, and safe machines answer every question. Without questions the program is a part (C136) of the one with wires. |
| C139 | As C138, with the invariants of C118 and C132. |

## Where the code does not do what the claim says

Every refutation is a machine-checked witness (`*_refuted`).

| Claim | What the code does |
|---|---|
| C05 | Reads a region slot that was never written, indexes `m_history` or a dispatch table out of bounds, or uses a null transition/object, in machines the compiler accepts. |
| C17 | A row on a composite is not a candidate in composites nested in it. |
| C21 | A replayed event that no row accepts and no state defers disappears without a report. |
| C22 | If only internal rows are anonymous, `has_anonymous_transition` is false and they never run. |
| C23 | The anonymous loop returns at the first region without anonymous candidates, later regions starve. |
| C26 | The location a region leaves is remembered for the composite region 0 is in. |
| C27 | After `set_dependency` the old rows remain as fall-backs and the unexpected-event handler keeps the old dependency. |
| C29, C30 | `on_exit` is not run for sources marked initial or direct; `on_entry` is not run for entry, direct and history targets. |
| C33 | Entering a composite with several regions sets only the region that fired. |
| C37 | Some prefix notations do not compile; `hsm::transition` with an initial source gives another source type. |
| C44 | `status()` prints the parent of region 0 for every region. |
| C48 | See above. |
| C75 | Holds; an internal row of a composite is tried twice in a state that the composite's table writes both with and without the initial marker. |
| C51 | A composite entered only through pseudo states has its internal rows placed after those of its children, so they are tried first. |
| C52 | Rows on a composite declared after the row that leads into it (the usual way to write a table) are tried before the rows inside the composite. |
| C53 | `is(r,P,S)` compares `P` with the composite of region 0, not of region `r`; it throws for a region without slot only if `P` matches. |
| C56 | With 256 initial states the loops over the regions never end: the constructor does not return. |
| C58 | A guard that sends the machine an event and says yes: the row then fires although the machine has left its source. |
| C59 | A guard that calls `set_dependency` and says no: the loop goes on with an iterator that `push_front` has invalidated. |
| C60 | An event sent by a callback is handled at once: the entry action of a state runs after the state was left again. |
| C61 | `gen/hsm.h` ignores internal rows of simple states, tries internal rows at exit points in another order, and replays deferred events at other times. |
| C62 | `gen/hsm.h` replays the oldest waiting event after rejected and deferred events as well: deferring two events swaps them, and a rejected event can change the state. |
| C63 | As C05. |
| C98 | From within callbacks the different times of replay under `gen/hsm.h` are seen in a single call. |
| C99 | As C59. |
| C111 | As C58. |
| C115 | The complex benchmark compares different machines: the switch reads an uninitialised state, the variant moves although its guard says no, and the ring built with the library stops after one round because `e51` is never sent. |
| C65 | When region 0 of a machine with regions enters a composite without initial states through an entry point, the number of regions becomes 0 and the machine never reacts again (`C65_refuted_regions`). |
| C39 | Holds, with the consequence that a guard on the row that creates an object is undefined on first entry; `create_state`/`reuse_state` cannot be used together with a dependency. |
