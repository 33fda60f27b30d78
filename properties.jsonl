{"id": "C01", "title": "The rows consulted for an event are exactly the declared rows, in a fixed priority order", "statement": "For every machine that builds, every composite P, every state S and every event E, the candidates that process_event(E) consults while a region is at (P,S) are exactly: one 'defer' marker per declared row of S for each time S lists E in defer_events, then the external rows whose source denotes (P,S) - or whose source is the composite P itself, when S is a direct child of P - from the last declared to the first, then the internal rows that apply to (P,S), from the last declared to the first. No other row is ever consulted and none is missing.", "quantifier": "all machine descriptions, all composites, all states, all events", "why_tests_cant": "Tests fix a handful of tables; the claim is about the output of the compile-time table generator for every table a user may write.", "anchors": ["include/hsm/details/fill_dispatch_table.h: addDispatchTableEntry, addDispatchTableEntryOfSubMachineExits, fill_dispatch_table_with_transitions, fill_dispatch_table_with_deferred_events", "include/hsm/details/sm.h: fill_dispatch_table"]}
{"id": "C02", "title": "Locations are encoded without collisions", "statement": "Any two different (parent, state) pairs of a machine have different internal indices, and the parent and the state can be recovered from the index; a pair that is not part of the machine never gets the index of one that is.", "quantifier": "all machine descriptions whose number of parents times number of states is below 2^64, all pairs", "why_tests_cant": "The index is computed with wrapping size_t arithmetic over a cartesian product of type lists; a test can only look at a few lists.", "anchors": ["include/hsm/details/idx.h: getCombinedStateIdx, calcParentStateIdx, calcStateIdx", "include/hsm/details/index_map.h: index_of"]}
{"id": "C03", "title": "The machine is in exactly one place", "statement": "At every point of every history (construction, process_event, set, set_dependency, with or without exceptions) there is exactly one pair (P,S) with is(P,S) true, exactly one S with is(S) true and exactly one P with parent_is(P) true, and these agree.", "quantifier": "all safe machines (see C05), all finite histories of API calls, all guard/action behaviours", "why_tests_cant": "It is an invariant over unbounded histories and over all machines.", "anchors": ["include/hsm/details/sm.h: is, parent_is, currentState, currentParentState"]}
{"id": "C04", "title": "set puts the machine exactly where asked, and does nothing else", "statement": "After set(P,S), is(P,S) holds; after set(r,P,S) with r below the number of region slots, region r is at (P,S), every other region is where it was, no callback ran, and the queue of deferred events, the history memory and the dispatch tables are untouched. With r at or beyond the number of slots set throws std::out_of_range and changes nothing. A region argument is reduced modulo 256.", "quantifier": "all machines, all histories before the call, all regions, parents and states", "why_tests_cant": "Ranges over every machine and every reachable state before the call.", "anchors": ["include/hsm/details/sm.h: set"]}
{"id": "C05", "title": "No API history causes undefined behaviour", "statement": "For every machine accepted by the compiler, constructing it and driving it with any sequence of process_event, set, set_dependency, is and status calls never reads an uninitialised region slot, never indexes the dispatch table, history or initial-state tables out of bounds and never dereferences a null transition or state object.", "quantifier": "all machines accepted by the compiler, all finite API histories, all callback behaviours", "why_tests_cant": "Memory safety over all machines and histories; the existing tests pass on machines for which the violation needs one more event.", "anchors": ["include/hsm/details/sm.h: process_event_internal, process_anonymous_transitions, update_current_state, update_current_regions, init_current_state"]}
{"id": "C06", "title": "Construction is safe exactly when pseudo-state scopes are real", "statement": "Building the dispatch tables writes only inside them if and only if every composite named as the parent of an exit/direct source, or used as the composite source of a row, is itself entered by some row of the machine; entry/direct/history targets never store an out-of-table destination if and only if their parent is a composite with rows.", "quantifier": "all machines accepted by the compiler", "why_tests_cant": "The compiler does not reject the bad machines; the failing index is silently one past the table.", "anchors": ["include/hsm/details/fill_dispatch_table.h: addDispatchTableEntry, addDispatchTableEntryOfSubMachineExits", "include/hsm/details/resolve_state.h: resolveSrcParent, resolveDstParent", "include/hsm/details/index_map.h: index_of"]}
{"id": "C07", "title": "Per region and event, the first enabled row fires and only that one", "statement": "While process_event handles an event in one region, guards are evaluated in the order of C01, each at most once, evaluation stops at the first guard that returns true, that row and no other fires in that region, and rows after it are not evaluated. A row without a guard counts as enabled. If no guard returns true no row fires in the region.", "quantifier": "all candidate lists, all guard behaviours (including guards that change the event or the world), all states", "why_tests_cant": "All guard behaviours and list lengths.", "anchors": ["include/hsm/details/sm.h: process_event_internal", "include/hsm/details/dispatch_table.h: executeGuard"]}
{"id": "C08", "title": "The result of process_event says whether something fired", "statement": "When process_event returns normally, it returns true if and only if the event was deferred in no region and at least one external or internal row fired in some active region; otherwise it returns false.", "quantifier": "all machines, states, events, callback behaviours", "why_tests_cant": "All combinations of regions, guards and deferrals.", "anchors": ["include/hsm/details/sm.h: process_event, process_event_internal"]}
{"id": "C09", "title": "The unexpected-event handler runs exactly when nothing could react", "statement": "on_unexpected_event is called by process_event(E) exactly when, in every active region, no row and no deferral exists for E at the current location; it is then called exactly once, with E and the object of region 0's current state, and nothing else changes. It is not called when guards reject, when the event is deferred or when a deferred event is replayed.", "quantifier": "all machines, states, events, callback behaviours", "why_tests_cant": "All combinations of regions and tables.", "anchors": ["include/hsm/details/sm.h: process_event, call_unexpected_event_handler", "include/hsm/details/fill_unexpected_event_handler_tables.h: fill_unexpected_event_handler_tables"]}
{"id": "C10", "title": "An event nobody accepts leaves the machine untouched", "statement": "If process_event returns false and the event was not deferred, every region is where it was, the number of active regions, the history memory and the deferred queue are unchanged and no action ran (guards and, when nothing could react, the unexpected-event handler are the only callbacks that ran).", "quantifier": "all machines, states, events, callback behaviours", "why_tests_cant": "All guard outcomes over all machines.", "anchors": ["include/hsm/details/sm.h: process_event, process_event_internal"]}
{"id": "C11", "title": "Internal rows never move the machine", "statement": "When an internal row fires, no region changes its location, the number of active regions and the history memory stay the same, and neither on_exit nor on_entry of the state it belongs to is run.", "quantifier": "all machines, all internal rows, all states", "why_tests_cant": "All machines and rows.", "anchors": ["include/hsm/details/sm.h: update_current_state", "include/hsm/details/resolve_state.h: resolveEntryAction, resolveExitAction, resolveInitialStateEntryAction"]}
{"id": "C12", "title": "Callbacks of a fired row run in the order exit, action, entry, initial entry", "statement": "When an external row fires, the callbacks run are: on_exit of its source (or of the parent of an exit pseudo-state source), then the row's action, then on_entry of its target, then - when the target is a composite - on_entry of the composite's first initial state; each that exists exactly once, all with the same event, source object, target object and dependency; if one throws the later ones do not run.", "quantifier": "all machines, all rows, all callback behaviours", "why_tests_cant": "All combinations of declared callbacks and exceptions.", "anchors": ["include/hsm/details/resolve_state.h: resolveEntryExitAction, resolveAction", "include/hsm/details/has_action.h: has_action", "include/hsm/details/dispatch_table.h: executeAction"]}
{"id": "C13", "title": "The configuration changes before the action runs, and an exception does not undo it", "statement": "When a row fires, its region is already at the new location when the first of its callbacks is invoked; if that callback throws, process_event propagates the exception, the region stays at the new location, later regions are not processed, and no deferred or anonymous event is processed.", "quantifier": "all machines, rows, callback behaviours, crash points", "why_tests_cant": "The property is about every point at which a callback may throw.", "anchors": ["include/hsm/details/sm.h: process_event_internal, update_current_state"]}
{"id": "C14", "title": "A throwing guard does not move its region", "statement": "If a guard throws, process_event propagates the exception, the region being processed and all later regions are where they were, no row fires in them, and the event is neither deferred nor reported as unexpected.", "quantifier": "all machines, states, events, callback behaviours, crash points", "why_tests_cant": "Every guard call is a possible crash point.", "anchors": ["include/hsm/details/sm.h: process_event_internal"]}
{"id": "C15", "title": "Regions are handled independently and in order", "statement": "Processing an event in region r changes the location of region r only; regions are handled in increasing order, the number of regions handled is the number active before the event, and the candidate list of region r is looked up at region r's location from before the event.", "quantifier": "all machines, states, events, callback behaviours", "why_tests_cant": "All numbers of regions and all interleavings of their effects.", "anchors": ["include/hsm/details/sm.h: process_event_internal, get_dispatch_table_entry"]}
{"id": "C16", "title": "A row on a composite applies in each of its direct children", "statement": "For every external row whose source is a composite P and for every direct child state S of P, the row is among the candidates for its event at (P,S), with the composite's object as source object and the same destination.", "quantifier": "all machines, all composite rows, all direct children", "why_tests_cant": "All machines.", "anchors": ["include/hsm/details/fill_dispatch_table.h: addDispatchTableEntryOfSubMachineExits"]}
{"id": "C17", "title": "A row on a composite applies at every depth below it", "statement": "A row whose source is a composite P is among the candidates for its event at every location inside P, including locations inside composites nested in P.", "quantifier": "all machines with nested composites", "why_tests_cant": "All nesting depths.", "anchors": ["include/hsm/details/fill_dispatch_table.h: addDispatchTableEntryOfSubMachineExits"]}
{"id": "C18", "title": "Deferring an event only queues it", "statement": "If the event is deferred in the first region that has candidates for it, process_event returns false, runs no callback, changes no location, and appends exactly this event with its payload at the back of the deferred queue.", "quantifier": "all machines, states, events, payloads", "why_tests_cant": "All machines and payloads.", "anchors": ["include/hsm/details/sm.h: process_event_internal", "include/hsm/details/variant_queue.h: push"]}
{"id": "C19", "title": "Deferred events are neither duplicated nor reordered in the queue", "statement": "Over any history the deferred queue is a FIFO: each process_event either leaves it alone, appends the processed event, or removes its oldest element and possibly appends that same event type at the back; nothing else ever enters or leaves it.", "quantifier": "all machines, all histories, all callback behaviours and exceptions", "why_tests_cant": "Unbounded histories.", "anchors": ["include/hsm/details/sm.h: process_deferred_events, process_event_internal", "include/hsm/details/variant_queue.h: visit"]}
{"id": "C20", "title": "A deferred event is replayed after a bounded number of processed events", "statement": "An event at position k of the deferred queue is replayed during the (k+1)-th subsequent process_event call that returns normally with true; each such call replays exactly one event, the oldest, provided the machine has deferring states.", "quantifier": "all machines, all histories, all queue positions", "why_tests_cant": "Unbounded histories and queue lengths.", "anchors": ["include/hsm/details/sm.h: process_deferred_events"]}
{"id": "C21", "title": "A deferred event is not lost", "statement": "A deferred event stays queued until some row accepts it (or it is reported as unexpected).", "quantifier": "all machines, all histories", "why_tests_cant": "Unbounded histories.", "anchors": ["include/hsm/details/sm.h: process_deferred_events"]}
{"id": "C22", "title": "Anonymous transitions run to completion (one region)", "statement": "In a machine with one region, whenever process_event returns true for an event that was the last one handled, no anonymous row at the final location is enabled: either there is none, or the guards of all of them returned false on their last evaluation, in order, with no action run in between.", "quantifier": "all one-region machines, all states, events, callback behaviours", "why_tests_cant": "Chains of anonymous transitions of any length.", "anchors": ["include/hsm/details/sm.h: process_anonymous_transitions"]}
{"id": "C23", "title": "Anonymous transitions run to completion (all regions)", "statement": "After process_event returns true no active region is at a location with an enabled anonymous row.", "quantifier": "all machines, states, events, callback behaviours", "why_tests_cant": "All numbers of regions.", "anchors": ["include/hsm/details/sm.h: process_anonymous_transitions"]}
{"id": "C24", "title": "Anonymous chains terminate when the anonymous rows are acyclic", "statement": "If a rank can be given to locations that every external anonymous row strictly decreases (and there are no internal anonymous rows), process_event terminates for every event and every callback behaviour, after a number of anonymous rounds bounded by the ranks; an unguarded anonymous self-loop never terminates.", "quantifier": "all machines, states, events, callback behaviours", "why_tests_cant": "Termination for all inputs.", "anchors": ["include/hsm/details/sm.h: process_anonymous_transitions"]}
{"id": "C25", "title": "History returns to the last active child (one region)", "statement": "In a machine with one region, over every history, firing a row whose target is history<P> moves the machine to the location inside P that was left by the most recent external row fired inside P, or to P's first initial state if none has fired there yet.", "quantifier": "all one-region machines, all finite histories including set and exceptions", "why_tests_cant": "Unbounded histories.", "anchors": ["include/hsm/details/sm.h: update_current_state", "include/hsm/details/resolve_state.h: resolveHistory, resolveDst"]}
{"id": "C26", "title": "History returns to the last active child (several regions)", "statement": "In a machine with several regions, firing a row with target history<P> in region r moves region r to the location inside P that region r most recently left, or to P's r-th initial state.", "quantifier": "all machines, all histories", "why_tests_cant": "Unbounded histories and all region layouts.", "anchors": ["include/hsm/details/sm.h: update_current_state"]}
{"id": "C27", "title": "set_dependency takes effect for every later callback", "statement": "After set_dependency(d), every guard, action, entry/exit action and unexpected-event handler invoked by the machine receives d.", "quantifier": "all machines, histories, callback behaviours", "why_tests_cant": "Unbounded histories and all guard outcomes.", "anchors": ["include/hsm/details/sm.h: set_dependency, fill_dispatch_table"]}
{"id": "C28", "title": "Without set_dependency every callback gets the constructor's dependency", "statement": "In every history that contains no set_dependency call every callback receives the dependency passed to the constructor, and after set_dependency(d) the first row consulted at every location is one that uses d.", "quantifier": "all machines, histories, callback behaviours", "why_tests_cant": "Unbounded histories.", "anchors": ["include/hsm/details/sm.h: sm, set_dependency", "include/hsm/details/dispatch_table.h: DispatchTableEntry"]}
{"id": "C29", "title": "Leaving a state runs its on_exit", "statement": "Whenever an external row moves the machine away from a state that declares on_exit, that on_exit runs exactly once, before the row's action.", "quantifier": "all machines, rows, states", "why_tests_cant": "All row shapes (plain, initial, exit, direct, composite sources).", "anchors": ["include/hsm/details/resolve_state.h: resolveExitAction", "include/hsm/details/has_action.h: has_pseudo_exit_action"]}
{"id": "C30", "title": "Entering a state runs its on_entry", "statement": "Whenever an external row moves the machine into a state that declares on_entry, that on_entry runs exactly once, after the row's action.", "quantifier": "all machines, rows, states", "why_tests_cant": "All target shapes (plain, composite, entry, direct, history).", "anchors": ["include/hsm/details/resolve_state.h: resolveEntryAction, resolveInitialStateEntryAction"]}
{"id": "C31", "title": "Every row of every reachable composite is in force", "statement": "Every row of the root and of every composite that is entered (as plain, entry, direct or history target) by a row in force is itself in force, with its own composite as parent; nothing else is in force.", "quantifier": "all machines with finitely nested composites", "why_tests_cant": "All nestings.", "anchors": ["include/hsm/details/flatten_transition_table.h: flatten_transition_table", "include/hsm/details/collect_parent_states.h: collect_parent_state_typeids"]}
{"id": "C32", "title": "Internal rows apply where declared", "statement": "An internal row of a composite P (root included) that occurs as a state of the machine is among the candidates for its event in every direct child of P; an internal row of a simple state S is among the candidates in S under every parent whose rows mention S.", "quantifier": "all machines", "why_tests_cant": "All machines.", "anchors": ["include/hsm/details/flatten_internal_transition_table.h: flatten_internal_transition_table, get_internal_transitions"]}
{"id": "C33", "title": "Entering a composite activates all its regions at their initial states", "statement": "When a row enters a composite P with n initial states, afterwards n regions are active and region i is at P's i-th initial state.", "quantifier": "all machines, composites, states", "why_tests_cant": "All region layouts.", "anchors": ["include/hsm/details/sm.h: update_current_state, update_current_regions"]}
{"id": "C34", "title": "The number of active regions follows the current composite", "statement": "After construction and after every fired external row the number of active regions equals the number of initial states of the composite region 0 is in (1 if no composite has more than one); only rows fired and construction change it.", "quantifier": "all machines, all histories", "why_tests_cant": "Unbounded histories.", "anchors": ["include/hsm/details/sm.h: update_current_regions, current_regions, set"]}
{"id": "C35", "title": "variant_queue is a FIFO", "statement": "For every sequence of push, visit, empty and size calls the queue behaves as a first-in-first-out list: visit hands the oldest element to the callable after removing it (so a throwing or re-pushing callable sees the shorter queue), throws std::runtime_error exactly on an empty queue and then changes nothing.", "quantifier": "all operation sequences, all callables", "why_tests_cant": "Unbounded operation sequences.", "anchors": ["include/hsm/details/variant_queue.h: variant_queue"]}
{"id": "C36", "title": "dunique_ptr frees everything exactly once", "statement": "For every sequence of constructions, moves, move-assignments, swaps, resets with fresh pointers and destructions of dunique_ptr objects, no object is deleted twice, no live handle points to a deleted object, and when all handles are destroyed every object that was not released has been deleted.", "quantifier": "all operation sequences on any number of handles", "why_tests_cant": "Unbounded operation sequences and aliasing.", "anchors": ["include/hsm/details/utils/dunique_ptr.h: dunique_ptr"]}
{"id": "C37", "title": "All notations for a row mean the same row", "statement": "For every source, event, optional guard, optional action and plain target, the postfix notation, the prefix notation and hsm::transition produce the same row; leaving out the event yields a row triggered by the none event; leaving out guard or action yields an unguarded or action-free row.", "quantifier": "all sources, events, guards, actions, targets", "why_tests_cant": "All combinations of operands.", "anchors": ["include/hsm/front/transition_dsl.h", "include/hsm/details/state.h: StateBase", "include/hsm/details/event.h: event_t"]}
{"id": "C38", "title": "Chained actions run left to right", "statement": "chain_actions(a1,...,an) runs a1..an in order on the same arguments, each seeing the effects of the previous ones; if one throws the rest are skipped and the exception propagates; chaining is associative and chaining nothing does nothing.", "quantifier": "all lists of actions, all behaviours", "why_tests_cant": "All lists and exception points.", "anchors": ["include/hsm/details/chain_actions.h: chain_actions"]}
{"id": "C39", "title": "Custom targets exist before they are used", "statement": "For a state without default constructor: an action built with create_state makes its object exist from then on; an action built with reuse_state, a guard on a row into it, or a callback on a row out of it is safe exactly if the object has been created before.", "quantifier": "all histories of rows into and out of such states", "why_tests_cant": "Unbounded histories.", "anchors": ["include/hsm/details/create_state.h", "include/hsm/details/reuse_state.h", "include/hsm/details/dispatch_table.h: executeAction, executeGuard"]}
{"id": "C40", "title": "Type lookup returns the position, or the length if absent", "statement": "index_of(list, x) is the position of x if x occurs exactly once in the list and the length of the list if it does not occur, for lists shorter than 2^64; if x occurs more than once in a list shorter than 2^32 the result is neither a position of x nor the length.", "quantifier": "all lists, all elements", "why_tests_cant": "Wrapping arithmetic over all lists.", "anchors": ["include/hsm/details/index_map.h: index_of"]}
{"id": "C41", "title": "Every callback invocation is justified by a declared row", "statement": "In every history, every guard or action invocation is the guard or one of the exit/action/entry callbacks of a declared row, is invoked for that row's event, with that row's source and target objects, while a region is (guard) or was just before (action) at a location the row applies to; every firing is preceded by its guard returning true if it has one.", "quantifier": "all machines, histories, callback behaviours", "why_tests_cant": "Unbounded histories.", "anchors": ["include/hsm/details/sm.h", "include/hsm/details/fill_dispatch_table.h"]}
{"id": "C42", "title": "Locations stay inside the declared machine", "statement": "In every history without set, the location of every region is the declared initial location of that region, or the destination of a declared row, or (for history targets) a remembered earlier location; in particular the state is a child of its parent composite whenever every entry/direct target names a child of its parent.", "quantifier": "all safe machines, all histories", "why_tests_cant": "Unbounded histories.", "anchors": ["include/hsm/details/sm.h: update_current_state", "include/hsm/details/resolve_state.h: resolveDst, resolveDstParent"]}
{"id": "C43", "title": "Replayed events carry the payload they were deferred with", "statement": "When a deferred event is replayed, the first callback invoked for it receives the payload the event had when it was queued, whatever other events and callbacks were processed in between.", "quantifier": "all machines, histories, payloads", "why_tests_cant": "Unbounded histories.", "anchors": ["include/hsm/details/variant_queue.h", "include/hsm/details/sm.h: process_deferred_events"]}
{"id": "C44", "title": "status reports every active region", "statement": "status() changes nothing, has one record per active region in order, and its text determines the combined, parent and state numbers of every active region.", "quantifier": "all machines, all states", "why_tests_cant": "All numbers of regions and indices.", "anchors": ["include/hsm/details/sm.h: status"]}
{"id": "C45", "title": "Events are re-evaluated only on the configuration after the main event is complete", "statement": "A deferred event is replayed only after the processed event and all anonymous rounds it triggered are complete; the replay in turn is followed by its own anonymous rounds, and a replayed event never triggers another replay within the same call.", "quantifier": "all machines, states, events, callback behaviours", "why_tests_cant": "All histories.", "anchors": ["include/hsm/details/sm.h: process_event, process_deferred_events"]}
{"id": "C46", "title": "Construction enters the declared initial configuration and runs no callback", "statement": "After construction region i of the root is at (root, i-th declared initial state) for every i below the number of initial states of the root, the deferred queue is empty, and no guard, action, entry action or anonymous row has run.", "quantifier": "all machines that build", "why_tests_cant": "All machines.", "anchors": ["include/hsm/details/sm.h: sm, init_current_state"]}
{"id": "C47", "title": "Removing duplicates keeps the first occurrence of everything", "statement": "The duplicate-removal used on state, event and parent lists returns a list without duplicates that has exactly the elements of the input, each at the relative position of its first occurrence, and is idempotent.", "quantifier": "all lists", "why_tests_cant": "All lists.", "anchors": ["include/hsm/details/remove_duplicates.h: remove_duplicates"]}
{"id": "C48", "title": "One event asks the guard of each row at most once", "statement": "Handling one event in one region calls the guard of each declared row at most once.", "quantifier": "all machines, histories, events, guard outcomes", "why_tests_cant": "All machines and all ways composites are nested.", "anchors": ["include/hsm/details/flatten_transition_table.h: flatten_transition_table", "include/hsm/details/fill_dispatch_table.h", "include/hsm/details/sm.h: process_event_internal"]}
{"id": "C49", "title": "What an event does is completely determined by the declarations", "statement": "In a machine whose state objects exist, process_event returns (or is left by a callback's exception) with a given result and machine state exactly if the rules stated in terms of declared rows, locations, history and deferral allow it; these rules allow at most one outcome.", "quantifier": "all regular machines, histories, events, payloads, callback behaviours", "why_tests_cant": "Tests compare single outcomes; that no other outcome is permitted for any machine and callback behaviour is a statement about all of them.", "anchors": ["include/hsm/details/sm.h: process_event, process_event_internal, process_deferred_events, process_anonymous_transitions, update_current_state"]}
{"id": "C50", "title": "Within a table, the row declared last has priority", "statement": "When a row fires in a region: the current state does not defer the event; every row declared after it in the same transition table that also applies for this event was asked and its guard said no; if it is an internal row, every applicable external row was asked and said no, and so was every internal row declared after it in the same internal table for the same event, provided no row of this table is declared again, in it or in another internal table that applies at this location. (Copies of a row count as the same row.)", "quantifier": "all regular machines, all moments of all histories, all events, payloads and callback behaviours", "why_tests_cant": "The order results from flattening, duplicate removal, reversed filling and the fall-back chain; tests only exercise a few tables.", "anchors": ["include/hsm/details/flatten_transition_table.h", "include/hsm/details/flatten_internal_transition_table.h", "include/hsm/details/fill_dispatch_table.h", "include/hsm/details/sm.h: process_event_internal"]}
{"id": "C51", "title": "Internal rows of a state have priority over internal rows of its composite", "statement": "In a simple state of a composite, an internal row of the composite fires only after the internal rows of the state for this event were asked and refused.", "quantifier": "all regular machines, histories, events, callback behaviours", "why_tests_cant": "Depends on the order in which states are first mentioned in all tables.", "anchors": ["include/hsm/details/flatten_internal_transition_table.h:104-145", "include/hsm/details/collect_states.h:100-105"]}
{"id": "C52", "title": "Rows inside a composite have priority over rows on the composite", "statement": "In a state of a composite, a row whose source is the composite fires only after the rows of the composite on this state for the same event were asked and refused.", "quantifier": "all regular machines, histories, events, callback behaviours", "why_tests_cant": "Depends on where in the enclosing table the composite is entered relative to where its rows are declared.", "anchors": ["include/hsm/details/flatten_transition_table.h:32-55", "include/hsm/details/fill_dispatch_table.h"]}
{"id": "C53", "title": "is(region, parent, state) reports the location of that region", "statement": "is(r,P,S) is true exactly if region r is in state S of composite P; for a region number at or beyond the number of slots it throws std::out_of_range. The region argument is reduced modulo 256.", "quantifier": "all regular machines, all histories, all regions, parents and states", "why_tests_cant": "Ranges over all histories that bring regions into different composites.", "anchors": ["include/hsm/details/sm.h:120-125, :332-340"]}
{"id": "C54", "title": "Which machines compile", "statement": "The compiler rejects sm<Root> exactly if one of these fails: Root has a transition table; at least one row is in force; some composite in force declares an initial state; the initial states of Root have neither a transition table nor internal rows; every row in force, external or internal, leads somewhere and both the state it starts in and the state it leads to are mentioned by a row in force; every event deferred by the source of a row in force triggers some row.", "quantifier": "all machines", "why_tests_cant": "Ranges over all machine declarations; a test can only show single programs being rejected, and a rejected program cannot be part of a test suite.", "anchors": ["include/hsm/details/sm.h:53-68", "include/hsm/details/fill_dispatch_table.h:94-102, :246", "include/hsm/details/resolve_state.h:27-44"]}
{"id": "C55", "title": "One object per state", "statement": "make_states_map holds exactly one object for each state of the machine, the root included: no key occurs twice, the object found for a state is of the class of that state, default constructed if the class can be and missing otherwise, and different states have different objects. Every object handed to a callback in any history is one of them.", "quantifier": "all machines (also those whose root is a state of its own table), all histories", "why_tests_cant": "Ranges over all machine declarations; the keys and the objects come from two different list computations that are zipped, and they could disagree for a machine no test declares.", "anchors": ["include/hsm/details/make_states_map.h:21-27", "include/hsm/details/collect_states.h:60-84", "include/hsm/details/to_pairs.h", "include/hsm/details/to_map.h", "include/hsm/details/traits.h:51-58"]}
{"id": "C56", "title": "The region counter covers every number of regions", "statement": "Construction returns, and process_event and status() visit each of the n active regions exactly once, in increasing order, whatever n is.", "quantifier": "all regular machines, all reachable machine objects, all events", "why_tests_cant": "The counter is an 8 bit integer compared with a size_t; the tests use at most two regions, and a machine with 256 regions makes the test hang instead of fail.", "anchors": ["include/hsm/details/sm.h:32, :160, :189, :247, :351"]}
{"id": "C57", "title": "Callbacks that use the machine keep it inside its declaration", "statement": "Guards, actions and handlers may call process_event, set and set_dependency on the machine that is running them, any number of times and nested to any depth. In every such history each region is, at every callback and before and after every move, at a declared location; and every move is to the destination of a declared external row, for history rows to the location remembered from the moves so far. If callbacks make no calls the machine behaves exactly as in the model the other properties are about.", "quantifier": "all regular machines with real scopes, all user code including code that calls the machine, all histories, all nesting depths", "why_tests_cant": "No test of the repository calls the machine from a callback; the space of call trees is unbounded.", "anchors": ["include/hsm/details/sm.h:88-107", "include/hsm/details/sm.h:183-229", "include/hsm/details/sm.h:240-271", "include/hsm/details/dispatch_table.h:54-115"]}
{"id": "C58", "title": "A row fires only from its source even if callbacks send events", "statement": "Also when callbacks call the machine, every move is that of a row applicable at the location where the region was when it moved.", "quantifier": "all regular machines with real scopes, all user code including code that calls the machine, all histories", "why_tests_cant": "The guard and the move are separated by user code that can do anything to the machine; a test shows one such program.", "anchors": ["include/hsm/details/sm.h:196-215", "include/hsm/details/sm.h:253-262"]}
{"id": "C59", "title": "Calling the machine from callbacks adds no undefined behaviour", "statement": "If a machine is safe in the sense of C05 then it stays free of undefined behaviour when its callbacks call process_event, set and set_dependency on it.", "quantifier": "all safe machines, all user code that is itself defined, all histories, all nesting depths", "why_tests_cant": "The loops hold iterators into deques that set_dependency pushes to; whether that shows in a test is a matter of luck.", "anchors": ["include/hsm/details/sm.h:190-217", "include/hsm/details/sm.h:168-173", "include/hsm/details/fill_dispatch_table.h:80, :146, :250", "include/hsm/details/make_dispatch_tables.h:27"]}
{"id": "C60", "title": "Run to completion", "statement": "Also when callbacks send events to the machine, each move is complete before the next one begins: just before the move the guard of its row said yes, just after it the callbacks of the row are called one directly after the other, and all have returned or one has thrown before the next move.", "quantifier": "all regular machines, all user code including code that calls the machine, all histories", "why_tests_cant": "The claim is about all interleavings of nested calls; no test of the repository sends an event from a callback.", "anchors": ["include/hsm/details/sm.h:88-107", "include/hsm/details/sm.h:212-215", "include/hsm/details/resolve_state.h:143-148"]}
{"id": "C61", "title": "The amalgamated header is a drop-in replacement", "statement": "A machine compiled against include/hsm/gen/hsm.h and given the same calls is in the same state and has run the same callbacks as one compiled against the modular headers.", "quantifier": "all regular machines both headers accept, all callbacks, all histories of process_event and set_dependency", "why_tests_cant": "Each test includes only one of the two headers; agreement for all machines cannot be sampled.", "anchors": ["include/hsm/gen/hsm.h:2300-2602", "include/hsm/gen/hsm.h:1346-1423", "include/hsm/details/sm.h:88-217"]}
{"id": "C62", "title": "Deferred events in the amalgamated header", "statement": "In the amalgamated header deferred events keep the order in which they arrived, and an event that is only deferred or rejected has no effect besides its own entry in the queue.", "quantifier": "all regular machines, all callbacks, all histories", "why_tests_cant": "Needs two deferred events waiting at the same time and a look at the queue; the repository's tests defer one event.", "anchors": ["include/hsm/gen/hsm.h:2351-2365", "include/hsm/gen/hsm.h:2410-2465"]}
{"id": "C63", "title": "Defined behaviour of the amalgamated header", "statement": "No call on a machine of the amalgamated header runs into undefined behaviour, and the constructor succeeds.", "quantifier": "all machines the compiler accepts, all callbacks that are themselves defined, all histories", "why_tests_cant": "Undefined behaviour need not show in a test.", "anchors": ["include/hsm/gen/hsm.h:2318-2349", "include/hsm/gen/hsm.h:2410-2560"]}
{"id": "C64", "title": "Nothing happens outside what the tables lead to", "statement": "Without calls to set, every region is always at a location that a chain of declared rows leads to from an initial state, using only events that were sent (or anonymous rows) and guards that can say yes; and every guard and action that is called belongs to a row at such a location. States and callbacks that the tables do not lead to are dead: never visited, never called.", "quantifier": "all machines the compiler accepts, all callbacks, all histories of process_event and set_dependency, including calls left by exceptions", "why_tests_cant": "That a state or callback is never reached is a statement about all histories; deferral, history and anonymous rows make unexpected paths.", "anchors": ["include/hsm/details/sm.h:183-330", "include/hsm/details/fill_dispatch_table.h:25-284", "include/hsm/details/flatten_internal_transition_table.h:1-146"]}
{"id": "C65", "title": "What the tables lead to can be visited", "statement": "For every location that a chain of rows leads to, each of them not hidden behind a row without guard or with the same guard, there are callbacks and events that bring the machine there.", "quantifier": "all machines the compiler accepts", "why_tests_cant": "A test visits the states its author thought of; this is about every row of every table.", "anchors": ["include/hsm/details/sm.h:183-330", "include/hsm/details/fill_dispatch_table.h:25-284", "include/hsm/details/dispatch_table.h:60-162"]}
{"id": "C66", "title": "Callbacks are called as declared, also by calls from callbacks", "statement": "Also when callbacks call process_event, set or set_dependency of the machine they run in, to any depth: every guard that is called is that of a row applicable for its event at some location, and every action one of the callbacks of such a row, called with the event, source, target and a dependency the machine was given; the unexpected-event handler is the root's, with the state region 0 is in and the dependency of the constructor. If guards do not call the machine, guards are called only where their row applies.", "quantifier": "all machines the compiler accepts with declared scopes, all callbacks including those that call the machine, all histories, including calls left by exceptions", "why_tests_cant": "Nested calls interleave in unbounded ways; a test fixes one nesting.", "anchors": ["include/hsm/details/sm.h:183-330", "include/hsm/details/dispatch_table.h:60-162", "include/hsm/details/resolve_state.h:120-160"]}
{"id": "C67", "title": "The order of rows matters only among rows that compete", "statement": "Exchanging two neighbouring rows of a transition table, any number of times, changes nothing a client can see, provided that neither the two rows nor the rows of composites they lead into compete for an event at a location, and the initial states keep their order: the same histories are possible, the same callbacks are called with the same arguments and results in the same order, the same moves are made, the same events are deferred, and the next call returns, throws, is undefined or does not end in the same way. In particular the numbers the library gives to states and parents cannot be observed. The two provisos are needed.", "quantifier": "all machines the compiler accepts with declared scopes, all tables, rows and numbers of exchanges, all callbacks, all histories, including calls left by exceptions", "why_tests_cant": "The claim compares two programs over all histories; a test runs one table on one history.", "anchors": ["include/hsm/details/flatten_transition_table.h:12-56", "include/hsm/details/fill_dispatch_table.h:48-284", "include/hsm/details/collect_states.h:20-92", "include/hsm/details/idx.h:1-92", "include/hsm/details/sm.h:183-362"]}
{"id": "C68", "title": "set_dependency makes the dispatch table grow, and with it the work per event", "statement": "After k calls of set_dependency every cell of the dispatch table holds each of its n candidate rows k+1 times. Handling an event in one region calls at most (k+1)*n guards, also when a callback throws, and exactly that many when no row fires and the event is not deferred. So no bound on the guards called for an event that is independent of the history exists.", "quantifier": "all machines the compiler accepts with declared scopes, all callbacks, all histories, including calls left by exceptions", "why_tests_cant": "The growth has no bound; a test makes a fixed number of calls and sees the same answers each time.", "anchors": ["include/hsm/details/sm.h:169-173", "include/hsm/details/fill_dispatch_table.h:48-284", "include/hsm/details/sm.h:183-229"]}
{"id": "C69", "title": "An event sent as the last act of a callback is handled as if it were sent afterwards", "statement": "If a callback, as its last act, calls process_event, set or set_dependency of the machine it runs in, the end of the outer call is the same as if the client had made that call after the outer one: same result, same places, same remembered states, same queue, same calls of callbacks in the same order, same moves.", "quantifier": "all machines the compiler accepts, all callbacks that make at most one call, as their last act, and ignore its reply, all histories and all depths of nesting, including calls left by exceptions", "why_tests_cant": "The claim compares two programs over all histories and depths of nesting; a test runs one program on one nesting.", "anchors": ["include/hsm/details/sm.h:183-330", "include/hsm/details/dispatch_table.h:60-162"]}
{"id": "C70", "title": "A row that can never fire can be removed", "statement": "Removing a row that applies at no location the machine can get to changes nothing a client can see: the same histories are possible, the same callbacks are called with the same arguments and results in the same order, the same moves are made, the same events are deferred, and the next call has the same outcome. Likewise such a row can be added.", "quantifier": "all machines the compiler accepts with declared scopes, with and without the row, all callbacks, all histories of calls both accept, including calls left by exceptions", "why_tests_cant": "The claim compares two programs over all histories; a test runs one table on one history.", "anchors": ["include/hsm/details/flatten_transition_table.h:12-56", "include/hsm/details/fill_dispatch_table.h:48-284", "include/hsm/details/collect_states.h:20-105", "include/hsm/details/sm.h:183-362"]}
{"id": "C71", "title": "A plain machine is the automaton its tables describe", "statement": "In a machine with one region and without anonymous rows, deferred events and history, whose guards have fixed answers and whose callbacks do not throw, any sequence of events leads to the location, the answers and the sequence of callback calls of the small automaton read off the declared rows: try the rows at the current location in order, ask their guards, take the first that says yes, run its callbacks, go to its target; without any row call the unexpected-event handler.", "quantifier": "all plain machines the compiler accepts with declared scopes, all callbacks with fixed guard answers, all sequences of events with payloads", "why_tests_cant": "It equates the whole behaviour of every plain machine with a specification for event sequences of any length.", "anchors": ["include/hsm/details/sm.h:86-129", "include/hsm/details/sm.h:183-362", "include/hsm/details/fill_dispatch_table.h:48-284"]}
{"id": "C72", "title": "The shipped programs do what they say", "statement": "The turnstile is unlocked exactly if the last event was a coin and never opens while its guard reports an error; the CD player behaves like the obvious hand-written player; the players of the simple benchmark are empty again after every turn of its loop and no event is ignored; the ring of the complex benchmark advances by one state per matching event. These machines and those of the integration tests never run into undefined behaviour, whatever calls they get, except two of the tests.", "quantifier": "all sequences of events, all callbacks with fixed guard answers (for safety: all callbacks and all calls)", "why_tests_cant": "The programs' own assertions follow one sequence of three events.", "anchors": ["example/turnstile/main.cpp:28-61", "example/cdplayer/main.cpp:52-109", "benchmark/simple/hsm.cpp:37-89", "benchmark/complex/ComplexStateMachine.h:214-270", "benchmark/complex/hsm.cpp:7-117", "test/integration/reproducer/should_enter_substate_with_multiple_regions.cpp:21-48", "test/integration/custom_targets.cpp"]}
{"id": "C73", "title": "A plain machine does what a short interpreter does, for arbitrary callbacks", "statement": "In a machine with one region and without anonymous rows, deferred events and history, every call of process_event, set and set_dependency has the outcome a short interpreter computes from the declared rows, the location, the payload and the world: what is returned or thrown, where the machine is then, what the user's world looks like, and which callbacks were called with which arguments, payloads and results. Undefined behaviour occurs exactly if a callback does something undefined. This holds for guards and actions that depend on and change payload and world, and after exceptions.", "quantifier": "all plain machines the compiler accepts with declared scopes whose state objects exist, all callbacks, all histories", "why_tests_cant": "It equates the whole behaviour of every plain machine under every callback with a specification, for histories of any length.", "anchors": ["include/hsm/details/sm.h:86-173", "include/hsm/details/sm.h:183-362", "include/hsm/details/dispatch_table.h:54-115", "include/hsm/details/fill_dispatch_table.h:48-284"]}
{"id": "C74", "title": "A composite works on the inside like a machine of its own", "statement": "While a plain machine is inside composite Q and receives events that no row declared outside Q takes there, it does what sm<Q> does: starting at the same location in the same world, process_event gives the same answer (or exception, or undefined callback), goes to the same location, leaves the same world and calls the same callbacks with the same arguments, for any number of events. In particular a machine that has just come to Q's initial state goes on like a newly constructed sm<Q>.", "quantifier": "all machines the compiler accepts and composites Q such that rows outside name, of the composites inside, only Q; all callbacks, all locations inside, all sequences of such events", "why_tests_cant": "It compares two machines of any size under arbitrary callbacks and event sequences; tests compare single runs of single machines. It is what testing a composite in isolation silently relies on.", "anchors": ["include/hsm/details/flatten_transition_table.h", "include/hsm/details/flatten_internal_transition_table.h", "include/hsm/details/fill_dispatch_table.h:48-284", "include/hsm/details/sm.h:183-362"]}
{"id": "C75", "title": "A row is tried once for every way into its composite", "statement": "For an event at a location, an external row of composite Q is tried as many times as there are ways from the root to Q along rows that lead into composites, times the number of times it is declared in Q's table, times the number of roles it has there (as a row on the state, as a row on its composite), times the number of dependencies the tables were filled with; an internal row once per dependency for every way in which the location is written where the row applies (plainly, with the initial marker, as an exit point of an inner composite). If the guard belongs to this row only, it is asked at most that often while the event is handled in a region, and exactly that often if no row fires. With n composites in one another and two entrances each, a row of the innermost is in the tables 2^n times.", "quantifier": "all machines, locations, events, histories and callbacks", "why_tests_cant": "Counts of tries depend on the whole nesting structure; the exponential family has no bound.", "anchors": ["include/hsm/details/flatten_transition_table.h", "include/hsm/details/fill_dispatch_table.h:48-284", "include/hsm/details/sm.h:183-229"]}
{"id": "C76", "title": "Names do not matter", "statement": "Two machines that differ only in the names of states, callbacks and events (different things having different names) behave alike: the compiler accepts both or neither, every state and composite has the same index, the constructor gives the same initial object or fails in the same way, and after the same history each call gives the same answer, the same exception or the same undefined behaviour, goes to the same slots, leaves the same deferred events, history and world and calls the same callbacks under their new names. is() and status() answer the same. If two callbacks get one name this is false: two internal rows that become the same type are one row.", "quantifier": "all machines (accepted or not), all one-to-one renamings that fix the event of anonymous rows, all callbacks that correspond, all histories and fuel", "why_tests_cant": "A test fixes the names it uses. That nothing in the tables or the dispatch depends on the order or the hash of a name is a statement about all renamings of all machines.", "anchors": ["include/hsm/details/idx.h", "include/hsm/details/index_map.h", "include/hsm/details/collect_states.h", "include/hsm/details/fill_dispatch_table.h", "include/hsm/details/remove_duplicates.h:24-27", "include/hsm/details/sm.h:47-362"]}
{"id": "C77", "title": "The library does what a reference interpreter does", "statement": "There is an interpreter for machines that knows only their declarations: regions are at named locations, the candidates of a location are tried in order, a composite remembers named locations, deferred events wait in a list, rows are bound to each dependency that was set. It has no dispatch tables, no indices, no maps and no divisions. After any history of calls the library and the interpreter are at the same locations with the same memory, deferred events, regions, world and callback calls, and the next call has the same outcome in both: the same answer, the same exception, or undefined behaviour of the same kind. In particular a call is undefined exactly if the interpreter says so.", "quantifier": "all regular machines with regions, history, deferral, anonymous rows and handlers, all callbacks (also throwing, undefined, and with missing state objects), all histories of process_event, set and set_dependency, any fuel", "why_tests_cant": "It equates two programs on all machines and all histories; tests compare single outputs.", "anchors": ["include/hsm/details/sm.h:47-362", "include/hsm/details/fill_dispatch_table.h", "include/hsm/details/dispatch_table.h", "include/hsm/details/transition.h", "include/hsm/details/idx.h"]}
{"id": "C78", "title": "The small helpers do what they say", "statement": "switch_ and lazy_switch_ give the function of the first case whose predicate holds, and always one if there is an otherwise; for_each and for_each_idx call their closure exactly once per element, from left to right, with the element's position, until a call throws; make_index_map maps each element of a list without repetitions to its position, like index_of; getActionIdx and getEventIdx number the actions of the external rows and the events without gaps or collisions, and give anything else the number of entries.", "quantifier": "all lists of cases, all sequences and closures, all machines, actions and events", "why_tests_cant": "The unit tests use lists of one to five elements.", "anchors": ["include/hsm/details/switch.h", "include/hsm/details/for_each.h", "include/hsm/details/for_each_idx.h", "include/hsm/details/collect_actions.h", "include/hsm/details/index_map.h:51-57", "include/hsm/details/idx.h:30,82-92"]}
{"id": "C79", "title": "Only verdicts matter", "statement": "Two clients of the same machine who make the same calls up to the values of the payloads, and whose callbacks give the same verdicts (answers of guards, and which callbacks throw), see the machine at the same places, with the same memory and the same kinds of waiting events, having called the same callbacks in the same order with the same arguments except payloads; every call tells both the same. It is enough that the verdicts of one are the first verdicts of the other. Payload values, worlds, what actions do and which exception they throw have no influence.", "quantifier": "for all machines the compiler accepts, all pairs of clients with arbitrary payload and world types, all histories", "why_tests_cant": "A test has one client. That nothing but the verdicts flows back into the library is a statement about pairs of arbitrary programs.", "anchors": ["include/hsm/details/sm.h:85-143", "include/hsm/details/sm.h:152-330", "include/hsm/details/dispatch_table.h", "include/hsm/details/transition.h"]}
{"id": "C80", "title": "A checker for a given machine, sound for all clients and exact without deferral", "statement": "A short non-deterministic description follows all clients of a machine at once: guards may answer either way, callbacks may throw, any event may come next, and set may be called with any arguments of a given list. The spots it passes are finitely many and can be listed by evaluation. Every machine object of any client that calls set with no other arguments is at a spot of that list, and if no step from a listed spot is undefined, then no call of such a client is undefined unless the client's own callbacks or missing state objects are to blame. If the machine defers nothing or has one region only, the list holds no other spots, and a machine is rejected just if some client can really make the library do something undefined. If events are deferred in several regions, or set is called with other arguments, this fails; counterexamples are given.", "quantifier": "for all machines the compiler accepts, all lists of arguments for set, all clients (callback behaviours, worlds, sequences of process_event, set and set_dependency), all reachable machine objects", "why_tests_cant": "A test follows one client; the list covers every event sequence, guard answer and exception of every client, and the converse says that every rejection is backed by a real failing client.", "anchors": ["include/hsm/details/sm.h:47-362", "include/hsm/details/fill_dispatch_table.h", "include/hsm/details/dispatch_table.h", "include/hsm/details/transition.h", "include/hsm/details/idx.h", "include/hsm/details/sm.h:132-154"]}
{"id": "C81", "title": "Machine objects can be moved", "statement": "Machines may be created, move-constructed, move-assigned, destroyed and called in any number and order. As long as nothing is called on an object after it was moved away, every call returns or throws what it would if machines never moved: the moved machine keeps its location, regions, history, deferred events, dispatch tables, dependencies and handlers. An object that was moved away still says where it was; an event sent to it changes nothing and returns false, except that with a handler for unexpected events a null pointer is called after move construction, and a handler bound to the dependency of the overwritten machine after move assignment. After set_dependency such an object of a machine without orthogonal regions and anonymous rows takes events again, but only by rows without guard, action, entry and exit actions, and, unless they are internal, in machines without history; any other row is undefined behaviour. It never calls a guard or an action.", "quantifier": "for all machines, all programs over any number of machine variables, all callbacks and worlds", "why_tests_cant": "The repository has no test that moves a machine; tests could move at a few points of a few histories, the theorem covers all interleavings of moves and calls of any number of machines.", "anchors": ["include/hsm/details/sm.h:28-44", "include/hsm/details/utils/dunique_ptr.h:19-30", "include/hsm/details/fill_dispatch_table.h:97-98", "include/hsm/details/dispatch_table.h:54-115"]}
{"id": "C82", "title": "The amalgamated header behaves as a reference interpreter says", "statement": "What a machine built with gen/hsm.h does is told by a short interpreter that knows only the declarations: named locations, candidate rows, remembered locations, waiting events. Internal rows are those of composites only, a row declared twice is there twice, each region sees a new none event, and the oldest waiting event is handled after every event for which some region had a row. Construction succeeds just if scopes are real and the root of a machine with regions has an initial state. Every call afterwards returns, throws, is undefined (with the same kind) or does not end just as the interpreter says, and leaves the machine it describes.", "quantifier": "for all machines the amalgamated header accepts, also those the modular header rejects; all callbacks, also those that write to the none event; all worlds, call sequences and dependencies", "why_tests_cant": "The tests of the repository run against the modular headers and look at a few machines; the theorem covers every machine the single header accepts and every history of calls, including the exact cases of undefined behaviour.", "anchors": ["include/hsm/gen/hsm.h:2300-2602", "include/hsm/gen/hsm.h:1346-1423"]}
{"id": "C83", "title": "Callbacks that use the machine behave as a reference interpreter says", "statement": "Guards, actions and handlers may send events to the machine that runs them, set a state or hand over a dependency, look at the reply or the exception and go on, to any depth. What happens is told by a short interpreter that knows only the declarations: the inner call is carried out on the spot, and the outer one goes on with the location, candidates and number of regions it read before. In particular it is known exactly when such a call is undefined: besides the cases without inner calls, if a guard says no after a dependency was added meanwhile. For callbacks that do not use the machine it is the interpreter of C77.", "quantifier": "for all machines the compiler accepts, all callbacks that are programs of calls on the machine (calls allowed by the static assertions), all worlds, histories, nesting depths", "why_tests_cant": "No test of the repository calls the machine from a callback; the theorem covers all programs of inner calls at all nesting depths.", "anchors": ["include/hsm/details/sm.h:88-335", "include/hsm/details/dispatch_table.h:54-115", "include/hsm/details/fill_dispatch_table.h:85"]}
{"id": "C84", "title": "Which machines can hang", "statement": "The only loop of the library that may not end is the one that runs anonymous rows. For a given machine it can be decided by evaluation whether it ends: the checker follows its rounds for all clients at once. If it finds a bound k, every call of every client that calls set only with arguments of a given list (possibly empty) ends, with at most k rounds in a row. If there is none (and nothing is deferred or there is one region only), there is a client and a call that never ends. So if every call of every client ends, one bound is good for all of them. This holds whatever the anonymous rows look like: cycles in rows that cannot be reached do no harm, guarded cycles do.", "quantifier": "for all machines the compiler accepts, all lists of arguments for set, all callbacks, worlds, payloads and histories that call set with these arguments only", "why_tests_cant": "A test that hangs shows one client; that no client hangs, or that some client with an infinite run exists, quantifies over all callbacks and infinite executions.", "anchors": ["include/hsm/details/sm.h:220-290", "include/hsm/details/transition_table_traits.h:15-26"]}
{"id": "C85", "title": "Two machines no client can tell apart: a check for refactorings", "statement": "A state machine may be rewritten: rows reordered, rows that are never tried removed or added, a composite flattened or introduced, states renamed. There is a finite check that goes through pairs of places, one of each machine, and compares the candidate rows there (guard, callbacks, arguments as the client sees them, where they lead). If it accepts, then for every client (payloads, effects, guards that answer anything, callbacks that throw, several dependencies) and every history of process_event and set_dependency calls on the first machine there is the same history on the second, with the same callbacks called in the same order with the same payloads, the same effects on the client, the same deferred events waiting, and every next call has the same outcome: the same answer, the same exception, the same kind of undefined behaviour, or no end on both.", "quantifier": "all pairs of machines the check accepts, all clients (that see states only through a given view; all clients if the view is the identity), all histories without set_state, all next calls", "why_tests_cant": "A test compares two machines on some event sequences with some guard answers. Indistinguishability is about all clients and all sequences; e.g. moving one row to an entry point in front of another silently reorders internal rows elsewhere.", "anchors": ["include/hsm/details/sm.h:88-335", "include/hsm/details/fill_dispatch_table.h", "include/hsm/details/flatten_internal_transition_table.h"]}
{"id": "C86", "title": "Rules about what clients observe can be decided", "statement": "A client of a state machine observes a sequence of signs: the events it sends, its guards, actions and handlers being called (which one, for which event, with which source and target, with which result or exception), and the answers or exceptions of process_event. A rule about such sequences can be written down as a monitor, an automaton that listens and complains. There is a finite check that follows all clients at once while the monitor listens. If it accepts, no client observes a sequence that breaks the rule, whatever its callbacks answer, do or throw, not even up to a point in the middle of a call. If it finds an entry that breaks the rule, there is a client that observes that. So the check decides the question; without deferred events and with a finite monitor it always comes to an end.", "quantifier": "all machines the library accepts, all monitors (any state type), all clients and their callbacks, all finite histories of process_event calls", "why_tests_cant": "A rule such as 'unlocking and locking alternate' or 'an action that failed is done again' is about all sequences of events with all guard answers and all exceptions. Tests look at some sequences; here every client is covered, and a refusal comes with a client that shows it.", "anchors": ["include/hsm/details/sm.h:88-335", "include/hsm/details/dispatch_table.h", "include/hsm/details/transition.h"]}
{"id": "C87", "title": "Whether clients can tell two machines apart can be decided", "statement": "One machine refines another if everything any client of the first observes (events, calls of guards, actions and handlers with their arguments and outcomes, answers, exceptions; states as far as a given view distinguishes them) some client of the second observes as well. There is a finite check of this, which works even if one machine needs silent rounds of anonymous transitions where the other needs none. If it accepts, the first refines the second. If it finds an entry where the second machine can no longer follow, there is a client of the first that observes what no client of the second ever does. If nothing is deferred and the second machine cannot go on with anonymous transitions for ever, the check always comes to an end and decides the question.", "quantifier": "all pairs of machines the library accepts, all views of their states, all clients and their callbacks, all finite histories of process_event calls", "why_tests_cant": "That a rewritten machine (a composite flattened, an intermediate state removed) can do nothing new is about all histories with all guard answers and all exceptions of both machines. Tests compare some histories; an exception at one particular callback can be the only one that shows the difference.", "anchors": ["include/hsm/details/sm.h:88-335", "include/hsm/details/dispatch_table.h", "include/hsm/details/transition.h"]}
{"id": "C88", "title": "Whether a machine can always get back can be decided", "statement": "What a client observed (events, calls with arguments and outcomes, answers, exceptions) determines the states of all regions, the history and the kinds of the waiting events, whoever the client is. A machine recovers if, whatever was observed so far, a client that observes the same first may go on such that one of given states is reached. There is a finite check of this: if it accepts, the machine recovers; if it rejects, some client observes something after which no client whatsoever ever reaches one of the states. If nothing is deferred the check always comes to an end and decides the question. The turnstile can always be locked and unlocked again; the CD player can always get back to Empty.", "quantifier": "all machines the library accepts, all sets of target states, all clients and their callbacks, all finite histories of process_event calls and all continuations", "why_tests_cant": "It alternates: for every history (with every guard answer and every exception) there is a continuation. A test can show one continuation after one history, but neither that each history has one nor that some history has none.", "anchors": ["include/hsm/details/sm.h:88-335", "include/hsm/details/dispatch_table.h", "include/hsm/details/transition.h", "example/cdplayer/main.cpp:52-100"]}
{"id": "C89", "title": "A refined machine can take the other's place", "statement": "Let every observation of clients of one machine also be one of clients of a second machine (C87; this can be checked), and let nothing be deferred in either. Take any client: its guards, actions and handlers, its world, and what it does between the events it sends with their values. If it is served by the first machine with certain answers and exceptions, then the second machine serves it too: each call gives the same answer or throws the same exception, the callbacks are called in the same order with the same arguments and the same values of the events, and the client's world ends up the same. If each machine refines the other, the two cannot be told apart by any client. The client must not send events of type none itself; with such an event the claim is false.", "quantifier": "all pairs of machines of which one refines the other, all clients (callbacks, worlds, values) and all finite sequences of requests", "why_tests_cant": "It speaks about all clients of two machines at once. A test runs one client; that two machines agree for each client, with callbacks that change the event's value or throw, needs an argument about how the calls of one machine determine those of the other.", "anchors": ["include/hsm/details/sm.h:88-335", "include/hsm/details/transition.h", "include/hsm/details/dispatch_table.h"]}
{"id": "C90", "title": "Regions side by side go their own ways", "statement": "Take a machine in which every composite has the same number of regions and which has no anonymous rows, no deferred events and no history, with guards whose answers do not change and callbacks that do not throw. After any sequence of events each region is exactly where the one-region automaton is that was started in that region's initial state and was sent the same events, whatever the other regions did meanwhile, also when region 0 is inside a composite and region 1 is not. An event is accepted exactly if one of these automata accepts it. For each event the callbacks of region 0 are called before those of region 1 and so on, and the unexpected-event handler is called exactly for events for which no region has a row. With a deferred event, or with composites that have different numbers of regions, the claim is false.", "quantifier": "all such machines with any number of regions, all event sequences of any length, all payloads and worlds, each region", "why_tests_cant": "The number of joint states of several regions is the product of the numbers of states of each. That a region's path never depends on the others needs an argument for all machines and all event sequences.", "anchors": ["include/hsm/details/sm.h:183-229", "include/hsm/details/sm.h:280-325", "include/hsm/details/sm.h:347-362"]}
{"id": "C91", "title": "Whether both headers treat a machine alike can be checked", "statement": "The modular headers and the amalgamated header do not order and collect internal rows alike. There is a check for a given machine: nothing is deferred, and at each place the machine can come to, whatever the event, the rows that can be tried are the same rows in the same order under both headers (rows after one without guard cannot be tried). If the check accepts the machine, then after any sequence of calls the two objects are in the same states, remember the same, hold the same waiting events, and have called the same callbacks with the same arguments; the next call returns, throws, is undefined or does not end in both alike. The check accepts every machine whose simple states have no internal rows, whose composites declare none twice, and whose composites with internal rows mention no exit or entry points, and also machines for which that is not so.", "quantifier": "all machines the check accepts, all sequences of process_event and set_dependency of any length, all callbacks that leave the none event as it is, including those that throw, all payloads and worlds", "why_tests_cant": "A test compares the two headers on the calls it makes. That no sequence of calls tells them apart needs an argument over all reachable places and all callbacks.", "anchors": ["include/hsm/gen/hsm.h:2300-2602", "include/hsm/gen/hsm.h:1346-1423", "include/hsm/details/sm.h:88-217", "include/hsm/details/flatten_internal_transition_table.h:1-146"]}
{"id": "C92", "title": "The log says which moves were made", "statement": "hsm::log prints a line for each call, naming the types of source, event and target it was called with. If it is the action of every row that moves and is used for nothing else, the lines printed are the moves that were made, in order, one line for each: the source named is the state that was left, the target named the state that was entered.", "quantifier": "all machines whose external rows all log, all sequences of process_event, set and set_dependency of any length, all other callbacks, including those that throw, all payloads and worlds", "why_tests_cant": "A test reads the lines of the moves it provokes. That there is never a line without a move, a move without a line or a line that names other states needs an argument over all machines and all sequences of calls; the exceptions show up only with history, rows on composites, exit actions that throw, or states that are not default constructible.", "anchors": ["include/hsm/details/log.h:8-12", "include/hsm/details/resolve_state.h:138-160", "include/hsm/details/fill_dispatch_table.h:1-130"]}
{"id": "C93", "title": "Under the amalgamated header everything that happens is accounted for", "statement": "For every machine compiled against include/hsm/gen/hsm.h the callbacks of its whole life are, in order, those of a list of entries, and the entries also say where its regions are. An entry is a guard of an applicable row that said no or threw and moved nothing; or a row whose guard, if any, has just said yes, which then moved its own region and no other (not at all if it is internal), to its target or for history rows to what the composite remembers, and then called its callbacks in order, all of them or up to one that threw; or the handler of the root, called with the first dependency and the state of region 0 for an event of the user for which no active region has a row or a deferral. Every event is the none event or was given by the user, every dependency is one that was set. What a composite remembers for a region is where an external row found that region last while region 0 was in the composite, and its own initial state before that.", "quantifier": "all regular machines the amalgamated header accepts, all callbacks, including those that throw or write to the event, all sequences of process_event and set_dependency of any length, all payloads and worlds", "why_tests_cant": "One test of the repository includes this header, and a test sees the callbacks of the runs it makes. That no callback is ever called and no region ever moves without a reason needs an argument over all machines and all histories.", "anchors": ["include/hsm/gen/hsm.h:2300-2602", "include/hsm/gen/hsm.h:1346-1423"]}
{"id": "C94", "title": "Nothing happens outside what the tables lead to, also when callbacks use the machine", "statement": "Let the user and the callbacks send only events in E and set regions only to locations in L. Then every region is always at a location that the tables lead to: an initial state of the root, a location in L, or the destination of an external row that applies at such a location to the none event or an event in E and whose guard can say yes; a history row leads to initial states or back to where the region has been. This holds between calls, whenever a callback is called however deeply nested, and before and after every move. Guards are called only if a row with them applies at such a location, other callbacks only if moreover the guard of the row can say yes, and the handler only for events in E with a state region 0 can be in. A set of locations that contains the initial ones and L and is closed under the rows is never left.", "quantifier": "all regular machines, all callbacks that send events, set regions and dependencies at any depth and throw, all histories of user calls of any length, all sets E and L", "why_tests_cant": "That a state is out of reach is a statement about all histories and about all interleavings of nested calls; C58 shows that with nested calls rows fire outside the state they belong to, so the argument for plain callbacks does not carry over.", "anchors": ["include/hsm/details/sm.h:88-107", "include/hsm/details/sm.h:183-330", "include/hsm/details/fill_dispatch_table.h:25-284"]}
{"id": "C95", "title": "No move and no action without consent, also when callbacks use the machine", "statement": "Callbacks may send events to the machine they run in, set its states and dependencies, to any depth. Every move is that of a declared external row that applies to the event at a place where the region has been (first, or by an earlier move, or put there by `set`): it moves one region to the destination of the row (history rows: to what is remembered), and if the row has a guard, then the last callback that ended before the move is this guard, called for this event, and it said yes; no other move is made on the same yes. Every exit, action or entry callback is one of a declared row that applies to the event where some region has been, called with the arguments of this row; before it the guard of the row, if any, said yes to the event, at that very moment the move of the row was made if it is external, and since then all callbacks of the row that come before this one have been called in order with the same arguments and have returned, whatever else happened in between.", "quantifier": "all machines the compiler accepts, all callbacks that use the machine at any depth and throw, all histories of user calls of any length, all payloads and worlds", "why_tests_cant": "Between the guard and the last entry action of one row any number of other events can be handled by nested calls; tests fix one pattern of nesting. The claim is about all of them.", "anchors": ["include/hsm/details/sm.h:196-216", "include/hsm/details/sm.h:253-264", "include/hsm/details/dispatch_table.h:54-115", "include/hsm/details/resolve_state.h:143-148"]}
{"id": "C96", "title": "Calls from callbacks come to an end if they only go downwards", "statement": "Give every event with its payload a rank, and suppose the callbacks of a machine, while they handle an event, only send events of lower rank to the machine and leave the payload with no higher rank; that callbacks of anonymous rows send and set nothing and the anonymous rows are acyclic; and that the machine does not both defer events and have regions. Then after every history every call ends: the calls nested in it, including those made for deferred events that are handled again on the way, are finite in depth and number, and the outcome does not depend on any bound of the model. In a machine that defers events and has regions a call may never end although all this holds: an event on which one region has acted may be put back by the next one.", "quantifier": "all regular machines with acyclic anonymous rows, all rankings, all callbacks that use the machine downwards at any depth and throw or not, all histories of any length (with any number of deferred events), all payloads and worlds", "why_tests_cant": "Termination is about all executions; each send may take one waiting event out of the queue, whatever its rank, whose callbacks send further events, so the number of nested calls is not bounded by anything a test could try.", "anchors": ["include/hsm/details/sm.h:88-107", "include/hsm/details/sm.h:183-238", "include/hsm/details/sm.h:240-272"]}
{"id": "C97", "title": "Callbacks that use machines of the amalgamated header behave as a reference interpreter says", "statement": "Guards, actions and handlers of a machine built with gen/hsm.h may send events to the machine that runs them or hand over a dependency, to any depth; process_event returns nothing there, so they only see whether it threw. What happens is told by a short interpreter that knows only the declarations: the inner call is carried out on the spot, replays the oldest waiting event whenever some region had a row for it, and the outer call goes on with the location, candidates and number of regions it read before. Returning, throwing, the kind of undefined behaviour and not ending are told exactly. For callbacks that do not use the machine it is the interpreter of C82.", "quantifier": "for all machines the amalgamated header accepts, all callbacks that are programs of calls on the machine (calls allowed by its static assertions), all worlds, histories, nesting depths", "why_tests_cant": "No test of the repository calls the machine from a callback, and none runs against the single header; the theorem covers all programs of inner calls at all nesting depths.", "anchors": ["include/hsm/gen/hsm.h:2300-2602"]}
{"id": "C98", "title": "Both headers treat machines used by their callbacks alike", "statement": "A program that compiles with both headers does not look at what process_event returns. If callbacks use the machine in this way, leave the none event as it is, and the machine is one the headers collect alike, then both headers do the same for every call: same outcome, same states, same callbacks with the same arguments, at any nesting depth.", "quantifier": "all machines, all callbacks that are programs of process_event and set_dependency calls and do not look at the reply, all call sequences, nesting depths, payloads and worlds", "why_tests_cant": "It compares two implementations on all programs of nested calls; a test compares them on the calls it makes.", "anchors": ["include/hsm/gen/hsm.h:2351-2501", "include/hsm/details/sm.h:88-272"]}
{"id": "C99", "title": "Callbacks that use machines of the amalgamated header add no undefined behaviour", "statement": "If a machine built with gen/hsm.h is safe in the sense of C63 then it can be constructed, and it stays free of undefined behaviour when its callbacks call process_event and set_dependency on it.", "quantifier": "all safe machines the amalgamated header accepts, all callbacks that are programs of calls on the machine, all histories, nesting depths, payloads and worlds", "why_tests_cant": "Absence of undefined behaviour under all nestings of calls is a statement about all programs of callbacks; tests run some.", "anchors": ["include/hsm/gen/hsm.h:2300-2602"]}
{"id": "C100", "title": "Nothing happens outside what the tables lead to, under the amalgamated header", "statement": "Let the user and the callbacks of a machine built with gen/hsm.h send only events in E. Then every region is always at a location that the tables, as that header reads them, lead to: an initial state of the root, or the destination of an external row that applies at such a location to the none event or an event in E and whose guard can say yes; a history row leads to initial states or back to where the region has been. Guards are called only if a row with them applies at such a location, other callbacks only if moreover the guard of the row can say yes, and the handler only for events in E with a state region 0 can be in. A set of locations that contains the initial ones and is closed under the rows is never left.", "quantifier": "all machines the amalgamated header accepts, all sets E with the none event, all callbacks that are programs of calls on the machine (or make none), all histories, nesting depths, payloads and worlds", "why_tests_cant": "That a location is never reached and a callback never called is a statement about all histories.", "anchors": ["include/hsm/gen/hsm.h:2300-2602"]}
{"id": "C101", "title": "One call does a bounded amount of work", "statement": "Let no state have more than N candidates (rows, including those inherited from composites and repeated by several entrances, and deferrals) for an event, let R be the largest number of initial states of a composite and K the number of times the tables were filled. Every pass through the regions invokes at most R*K*N guards and at most 4*R other callbacks. A call handles its own event and at most one deferred event, and for each makes one pass and then one per round of anonymous rows. So without anonymous rows a call invokes at most 2*R*K*N guards and 8*R other callbacks; if anonymous rows go downwards along a rank at most B, it comes to an end within R*B+2 passes per event. This holds whether the call returns or throws. A call that returns true or throws does not lengthen the queue of deferred events; any other call adds at most one event. The same bounds hold for gen/hsm.h, where any call adds at most one event.", "quantifier": "all machines the compiler accepts, all callbacks that make no calls on the machine, all histories, events, payloads and worlds", "why_tests_cant": "A worst case over all machines, states and guard results cannot be found by running some of them.", "anchors": ["include/hsm/details/sm.h:88-107", "include/hsm/details/sm.h:183-308", "include/hsm/details/dispatch_table.h:54-115", "include/hsm/gen/hsm.h:2351-2501"]}
{"id": "C102", "title": "Calls come to an end under gen/hsm.h", "statement": "Under the amalgamated header, too: if the callbacks make no calls on the machine and its anonymous rows are acyclic, every call after every history ends, whether the machine has regions, defers events, both or neither, and whether guards, actions or handlers throw; it then invokes no more callbacks than C101 allows. If callbacks send events to the machine, only of lower rank than the one being handled, and the machine does not both defer events and have regions, every call ends with all the calls nested in it, although this header hands out a waiting event again also after a deferral or a rejection. The outcome does not depend on any bound of the model. Both conditions are needed: a machine whose anonymous rows form a loop never ends, and in a machine that defers events and has regions a call may nest forever.", "quantifier": "all machines gen/hsm.h accepts with acyclic anonymous rows, all rankings, all callbacks (plain, or sending downwards at any depth), throwing or not, all histories of any length with any number of deferred events, all payloads and worlds", "why_tests_cant": "Termination is about all executions; the number of nested calls depends on everything that waits in the queue, and the counterexamples need a particular order of deferred events.", "anchors": ["include/hsm/gen/hsm.h:2351-2501"]}
{"id": "C103", "title": "A checker for machines of gen/hsm.h, sound for all clients and exact without deferral", "statement": "Also for the amalgamated header a short non-deterministic description follows all clients of a machine at once: guards may answer either way, callbacks may throw, any event may come next. The spots it passes are finitely many and can be listed by evaluation. Every machine object of any client is at a listed spot. If no step from a listed spot is undefined, no call of any client is undefined unless the client's own callbacks or missing state objects are to blame. If at every listed spot at most k rounds of anonymous rows can follow, no call of any client takes more than k rounds in a row; in particular every call ends. If the machine defers nothing or has one region only, the list holds no other spots, the machine is rejected just if some client can really make the library do something undefined, and there is no bound k just if some call of some client never ends; one bound is then good for all clients. If events are deferred in several regions this fails; a counterexample is given.", "quantifier": "all machines gen/hsm.h accepts, all clients (all callbacks, worlds, payloads, exceptions), all histories of any length; exactness for all machines that defer nothing or have one region", "why_tests_cant": "A test runs one client; here one finite evaluation speaks about all clients and all histories, and a rejection is turned into a client that fails.", "anchors": ["include/hsm/gen/hsm.h:2351-2501", "include/hsm/gen/hsm.h:1790-2346"]}
{"id": "C104", "title": "Rules about what clients of gen/hsm.h observe can be decided", "statement": "A client of a machine built with the amalgamated header observes a sequence of signs: the events it sends, its guards, actions and handlers being called (which one, for which event, with which source and target, with which result or exception), and whether process_event returned or threw. A rule about such sequences is a monitor, an automaton that listens and complains. There is a finite check that follows all clients at once, with the events that wait and the monitor. If it accepts, no client ever observes a break of the rule, whatever its callbacks do, not even in the middle of a call. If the list it computed has an entry that breaks the rule, some client really observes that. With a finite monitor and nothing deferred the check comes to an end, so the question is decided. The same rule for the same machine can be kept under the modular headers and broken under the amalgamated one.", "quantifier": "all machines gen/hsm.h accepts, all monitors, all clients (all callbacks, worlds, payloads, exceptions) that construct the machine and send events, all histories of any length", "why_tests_cant": "A test listens to one client; here one finite evaluation speaks about all clients and all histories, and a refusal is turned into a client that observes the break.", "anchors": ["include/hsm/gen/hsm.h:2351-2501", "include/hsm/gen/hsm.h:1790-2346"]}
{"id": "C105", "title": "Whether a client can tell which header it includes can be decided", "statement": "Take two machines, each built with the modular headers or with gen/hsm.h, and two ways of looking at states. There is a finite procedure that follows all clients of the first machine and, while it hears what they observe (events sent, callbacks called with their arguments, results and exceptions, process_event returning or throwing; not the value it returns), keeps track of what the second machine may be doing. If it never loses the second machine, whatever a client of the first observes is observed by some client of the second. If it does lose it, some client of the first observes what no client of the second ever does. If nothing is deferred and the second machine cannot go on with anonymous rows for ever, the procedure ends with one of these answers. So it is decided whether a program can move from one header to the other unnoticed, also after changes to its tables: an internal row of a plain state gets lost in gen/hsm.h, and writing it as a row from the state to itself repairs that.", "quantifier": "all pairs of machines, each with either header, all views of states, all clients (all callbacks, worlds, payloads, exceptions) that construct a machine and send events, all histories of any length", "why_tests_cant": "A test compares one client with one run of the other header; here one evaluation speaks about all clients and histories, and a refusal names an observation that the other header can never produce.", "anchors": ["include/hsm/gen/hsm.h:2351-2501", "include/hsm/gen/hsm.h:1790-2346", "include/hsm/details/sm.h:88-335"]}
{"id": "C106", "title": "Machine objects of the amalgamated header can be moved", "statement": "Machines of gen/hsm.h may be created, move-constructed, move-assigned, destroyed and called in any number and order. As long as nothing is called on an object after it was moved away, every call returns or throws as it would if machines never moved, and the machine keeps its location, regions, history, deferred events, dispatch tables, dependencies and handlers. An event sent to an object that was moved away changes nothing, except that with a handler for unexpected events a null pointer is called after move construction, and a handler bound to the dependency of the overwritten machine after move assignment. After set_dependency such an object of a machine without orthogonal regions and anonymous rows takes events again, but only by rows without guard, action, entry and exit actions, and, unless they are internal, in machines without history; any other row is undefined behaviour. It never calls a guard or an action.", "quantifier": "all machines gen/hsm.h accepts, all programs of any length over any number of variables, all callbacks, worlds, payloads and dependencies", "why_tests_cant": "Moving can lose any of eight members, each of which matters only in some later call; the claim is about all programs that interleave moves of several machines with calls.", "anchors": ["include/hsm/gen/hsm.h:2300-2315", "include/hsm/gen/hsm.h:1474-1500", "include/hsm/gen/hsm.h:2351-2407"]}
{"id": "C107", "title": "A machine can be replaced by one of the other header without its client noticing", "statement": "Take two machines, each built with the modular headers or with gen/hsm.h, such that whatever clients of the first observe is observed by clients of the second (C105). Then every client, with its callbacks, its world and the values of the events it sends, that is served by the first is served by the second in the same way: the same calls return or throw the same exceptions, the same callbacks are called in the same order with the same arguments and values, and the client's world ends up the same. This holds if neither machine defers events, the object types the client has to provide are there, and the client neither sends events of type none nor changes them in a callback. If nobody can tell the two apart, the clients of both get the same. The last condition is needed, since gen/hsm.h makes a new none event for each region and round.", "quantifier": "all pairs of machines and headers, all clients: callbacks, worlds, values, dependencies, lists of requests of any length", "why_tests_cant": "A test suite compares the two headers for one program and its own callbacks; the claim is that one finite check of the tables (C105) is enough for all callbacks and all event values.", "anchors": ["include/hsm/details/sm.h:88-118", "include/hsm/details/sm.h:183-272", "include/hsm/gen/hsm.h:2351-2407", "include/hsm/gen/hsm.h:2410-2505"]}
{"id": "C108", "title": "Whether a machine of either header can always get somewhere can be decided", "statement": "What a client of a machine built with gen/hsm.h observes says where the machine is, what it remembers and which kinds of events wait. For a machine built with the modular headers or with gen/hsm.h and a list of locations there is a finite procedure, given a list of the cases that leaves out nothing: if it says yes then, whatever some client observed so far, some client observes first the same and then something after which the machine is at one of the locations; if it says no then some client observes something after which no client, whatever its callbacks do, ever gets there. Without deferred events the procedure comes to an end.", "quantifier": "all machines either header accepts, all lists of locations, all clients, histories of any length", "why_tests_cant": "\"Always\" and \"never again\" range over all continuations by all clients.", "anchors": ["include/hsm/details/sm.h:88-118", "include/hsm/details/sm.h:183-272", "include/hsm/gen/hsm.h:2351-2407", "include/hsm/gen/hsm.h:2410-2505"]}
{"id": "C109", "title": "With gen/hsm.h no move and no action without consent, also when callbacks use the machine", "statement": "Callbacks of a machine built with gen/hsm.h may send events to the machine they run in, have deferred events handled by it and give it dependencies, to any depth. Every move is that of a declared external row that applies to the event at a place where the region has been (first, or by an earlier move): it moves one region to the destination of the row (history rows: to what is remembered), and if the row has a guard, then the last callback that ended before the move is this guard, called for this event, and it said yes; no other move is made on the same yes. Every exit, action or entry callback is one of a declared row that applies to the event where some region has been, called with the arguments of this row; before it the guard of the row, if any, said yes to the event, at that very moment the move of the row was made if it is external, and since then all callbacks of the row that come before this one have been called in order with the same arguments and have returned, whatever else happened in between.", "quantifier": "all machines gen/hsm.h accepts, all callbacks that use the machine at any depth and throw, all histories of user calls of any length, all payloads and worlds", "why_tests_cant": "Between the guard and the last entry action of one row any number of other events, also deferred ones, can be handled by nested calls; tests fix one pattern of nesting.", "anchors": ["include/hsm/gen/hsm.h:2351-2407", "include/hsm/gen/hsm.h:2410-2505"]}
{"id": "C110", "title": "With gen/hsm.h callbacks are called as declared, also by calls from callbacks", "statement": "Callbacks of a machine built with gen/hsm.h may send events to the machine they run in, have deferred events handled by it and give it dependencies, to any depth. Every guard that is called is that of a row applicable for its event at some location, and every action one of the callbacks of such a row, called with the event, source, target and a dependency the machine was given; the unexpected-event handler is the root's, with the state region 0 is in and the dependency of the constructor, for an event gen/hsm.h knows. If guards do not call the machine, guards are called only where their row applies.", "quantifier": "all machines gen/hsm.h accepts, all callbacks including those that call the machine, all histories, including calls left by exceptions", "why_tests_cant": "Nested calls interleave in unbounded ways; a test fixes one nesting.", "anchors": ["include/hsm/gen/hsm.h:2351-2407", "include/hsm/gen/hsm.h:2410-2505"]}
{"id": "C111", "title": "With gen/hsm.h a row fires only from its source even if callbacks send events", "statement": "Also when callbacks call a machine built with gen/hsm.h, every move is that of a row applicable at the location where the region was when it moved.", "quantifier": "all machines gen/hsm.h accepts, all user code including code that calls the machine, all histories", "why_tests_cant": "The guard and the move are separated by user code that can do anything to the machine; a test shows one such program.", "anchors": ["include/hsm/gen/hsm.h:2351-2407", "include/hsm/gen/hsm.h:2410-2505"]}
{"id": "C112", "title": "Refactorings no client sees, even if its callbacks use the machine: a check", "statement": "Callbacks may send events to the machine that runs them, set states and hand over dependencies, to any depth. There is a finite check for two machines that goes through pairs of locations and compares the candidates there one by one (guard, callbacks, arguments as the client sees them, paired targets, or the history of paired composites). If it accepts, then for every client and every history of process_event, set and set_dependency calls on the first machine, from outside and from inside callbacks, there is the same history on the second, with the same callbacks called in the same order with the same payloads, the same effects on the client, the same deferred events waiting and the regions at paired locations, and every next call has the same outcome: the same answer, the same exception, the same kind of undefined behaviour, or no end on both. The check of C85, which looks at reachable places of all regions and histories together, does not suffice for such clients.", "quantifier": "all pairs of machines the check accepts, all clients whose callbacks use the machine at any depth (set only on locations paired with themselves), all histories, all next calls", "why_tests_cant": "The calls callbacks can make in the middle of others are unbounded; refactorings that are invisible to every ordinary client can be seen by a guard that sends an event, as C112_needed shows.", "anchors": ["include/hsm/details/sm.h:88-335", "include/hsm/details/fill_dispatch_table.h", "include/hsm/details/flatten_internal_transition_table.h"]}
{"id": "C113", "title": "Refactorings of machines of the amalgamated header no client sees: a check", "statement": "For machines built with gen/hsm.h there is the check of C112 with the candidates and events of that header. If it accepts two machines, then for every client, whose callbacks may send events to the machine that runs them and hand over dependencies, to any depth, every history on the first machine has the same history on the second, with the same callbacks called in the same order with the same payloads, the same effects on the client, the same deferred events waiting and the regions at paired locations, and every next call has the same outcome: return, the same exception, the same kind of undefined behaviour, or no end on both.", "quantifier": "all pairs of machines the check accepts, all clients whose callbacks use the machine at any depth, all histories, all next calls", "why_tests_cant": "Indistinguishability is about all clients and all sequences, with calls nested to any depth; tests compare two machines on some.", "anchors": ["include/hsm/gen/hsm.h:2351-2407", "include/hsm/gen/hsm.h:2410-2505"]}
{"id": "C114", "title": "The order of rows and rows that are not needed go unseen, even if callbacks use the machine", "statement": "Callbacks may send events to the machine that runs them, set states and hand over dependencies, to any depth. For such clients too, exchanging neighbouring rows that do not compete (under the provisos of C67), any number of times and in either direction, changes nothing that can be seen; and neither does removing, or adding, a row that applies at no location the machine can be at and along with which no row is read that does (the condition under which C70 holds), as long as the client, also from inside its callbacks, sends only events both machines know and sets only locations among those considered: the same histories are possible, the same callbacks are called with the same arguments and results in the same order, with the same effects on the client, the same events are deferred, as many regions are active and they are at the same locations, and the next call returns, throws, is undefined or does not end in the same way.", "quantifier": "all machines, all exchanges of independent rows and all removable rows, all clients whose callbacks use the machine at any depth, all histories, all next calls", "why_tests_cant": "Whether an edit of a table is invisible is a statement about all clients, including those whose callbacks interleave calls of their own; the numbers of states and parents differ between the machines, and a test sees a few interleavings.", "anchors": ["include/hsm/details/sm.h:88-335", "include/hsm/details/flatten_internal_transition_table.h", "include/hsm/details/fill_dispatch_table.h", "include/hsm/details/collect_parent_states.h"]}
{"id": "C115", "title": "The machines the complex benchmark compares do the same", "statement": "Whatever events e1 to e50 the loop of the complex benchmark sends, whatever the guard says and the action does, the machine built with the library, the switch and the variant written by hand run their actions in the same way. This is false of the code: the switch reads its state before it has been given a value; the variant moves on even if its guard says no; and the machine built with the library has one state more, whose event e51 is never sent, so that it stops after one round of fifty actions while the others go on. True is: the machine built with the library and the switch, if that started in S1, do the same for all guards and actions until they have gone round once, and the variant does the same as such a switch if the guard says yes.", "quantifier": "all sequences of events e1 to e50, all guards and actions that depend on and change the user's world", "why_tests_cant": "The benchmark only measures time; what is random in it, and that the ring stops after the first round, no output shows.", "anchors": ["benchmark/complex/switch.cpp:112-982", "benchmark/complex/variant.cpp:126-998", "benchmark/complex/ComplexStateMachine.h:108-109", "benchmark/complex/ComplexStateMachine.h:214-269", "benchmark/complex/hsm.cpp:7-117"]}
{"id": "C116", "title": "In the amalgamated header too, the order of rows and rows that are not needed go unseen", "statement": "For machines built with gen/hsm.h, whose internal rows in force are others (only those of composites, and repeated rows count twice), and for clients whose callbacks may send it events and hand over dependencies to any depth: exchanging neighbouring rows that do not compete, any number of times and in either direction, changes nothing that can be seen, and neither does removing, or adding, a row that applies at no location the machine can be at and along with which no row is read that does, as long as the client sends only events both machines know: the same histories are possible, the same callbacks are called with the same arguments and results in the same order, with the same effects on the client, the same events are deferred, as many regions are active and they are at the same locations, and the next call returns, throws, is undefined or does not end in the same way. The order of rows that do compete does matter.", "quantifier": "all machines gen/hsm.h accepts, all exchanges of independent rows and all removable rows, all clients whose callbacks use the machine at any depth, all histories, all next calls", "why_tests_cant": "Whether an edit of a table is invisible is a statement about all clients and histories; the numbers of states and parents differ between the machines, and a test sees a few of them.", "anchors": ["include/hsm/gen/hsm.h:1346-1423", "include/hsm/gen/hsm.h:1906-2000", "include/hsm/gen/hsm.h:2300-2602"]}
{"id": "C117", "title": "Several machines in one program", "statement": "A program has any number of sm objects, of the same or of different types, and callbacks of any of them may call process_event, set and set_dependency of any of them, to any depth and back again. In every history of calls on them, ended by returns or by exceptions: every machine is, and was at each of its callbacks and before and after each of its moves, at declared locations, and moves only to the destinations of its own external rows; every move and every callback of a row has the consent of a guard called for that very machine, with the arguments of that row (as C95); callbacks of a machine are only those its own tables provide for, with dependencies this machine was given (as C66); a machine whose guards make no calls moves only by rows applicable where it is, whatever the guards of other machines do; if all machines are safe in the sense of C59, the only undefined behaviour is a loop over a table cell that was pushed to, and there is none at all if, for each machine, its guards make no calls or no callback of any machine calls its set_dependency; a machine nobody calls is not changed; and a machine whose callbacks use only itself does exactly what it does in a program of its own.", "quantifier": "all families of machines, all callbacks and the calls they make on any of the machines at any depth, all histories of calls on any of the machines with returns and exceptions, every machine", "why_tests_cant": "Tests of the repository have one machine object each. How calls between machines nest is unbounded, and each nested call can come back to a machine in the middle of its own call.", "anchors": ["include/hsm/details/sm.h:26-44", "include/hsm/details/sm.h:88-173", "include/hsm/details/dispatch_table.h:54-162"]}
{"id": "C118", "title": "Several machines of the amalgamated header in one program", "statement": "As C117 for machines built with gen/hsm.h (which has no set): callbacks of any machine may call process_event and set_dependency of any machine, to any depth and back again. In every history every move and every callback of a row has the consent of a guard called for that very machine (as C109); callbacks of a machine are only those its own tables provide for, with dependencies this machine was given (as C110); a machine whose guards make no calls moves only by rows applicable where it is; if all machines are safe in the sense of C99, the only undefined behaviour is a loop over a table cell that was pushed to, and there is none at all if, for each machine, its guards make no calls or no callback of any machine calls its set_dependency; a machine nobody calls is not changed; and a machine whose callbacks use only itself does exactly what it does in a program of its own.", "quantifier": "all families of machines, all callbacks and the calls they make on any of the machines at any depth, all histories of calls on any of the machines with returns and exceptions, every machine", "why_tests_cant": "Tests of the repository have one machine object each, and none uses the amalgamated header. How calls between machines nest is unbounded, and each nested call can come back to a machine in the middle of its own call.", "anchors": ["include/hsm/gen/hsm.h:2300-2320", "include/hsm/gen/hsm.h:2351-2410"]}
{"id": "C119", "title": "Several machines in one program behave as a reference interpreter says", "statement": "A program has any number of machines, of the same or of different types, and callbacks of any of them may call process_event, set and set_dependency of any of them, look at the reply or the exception and go on, to any depth. What happens is told by a short interpreter that knows only the declarations: the inner call is carried out on the spot, on the configuration the called machine has by then, and if the way leads back to a machine in the middle of a call, the outer call goes on where the inner one left it, with the location, candidates and number of regions it read before. Replies, exceptions, the configuration of every machine, the callbacks of every machine, the kind of undefined behaviour and calls that do not end are told exactly, for one call and for whole histories.", "quantifier": "all families of regular machines, all callbacks whose calls pass the static assertions, all histories of calls on any of the machines with returns and exceptions", "why_tests_cant": "Tests of the repository have one machine object each. The interpreter is compared for all families of machines, all callbacks, all depths of nesting and all histories, including calls that end in undefined behaviour, which a test cannot observe.", "anchors": ["include/hsm/details/sm.h:37-44", "include/hsm/details/sm.h:88-173", "include/hsm/details/dispatch_table.h:54-162"]}
{"id": "C120", "title": "Several machines of the amalgamated header behave as a reference interpreter says", "statement": "As C119 for machines built with gen/hsm.h (which has no set, and whose process_event returns nothing): what a program of any number of machines does, whose callbacks may use any of them to any depth, is told by the interpreter of C97 for each machine, inner calls being carried out on the spot. Exceptions, the configuration of every machine, the callbacks of every machine, the kind of undefined behaviour and calls that do not end are told exactly, for one call and for whole histories.", "quantifier": "all families of regular machines, all callbacks whose calls pass the static assertions, all histories of calls on any of the machines with returns and exceptions", "why_tests_cant": "Tests of the repository have one machine object each. The interpreter is compared for all families of machines, all callbacks, all depths of nesting and all histories, including calls that end in undefined behaviour, which a test cannot observe.", "anchors": ["include/hsm/gen/hsm.h:2300-2320", "include/hsm/gen/hsm.h:2351-2410"]}
{"id": "C121", "title": "Refactorings of several machines at once that no client sees: a check", "statement": "A program has any number of machines, and callbacks of any of them may send events to, set states of and hand dependencies to any of them, to any depth. If the check of C112 accepts every machine with its replacement, then all machines can be replaced at once: for every client and every history of process_event, set and set_dependency calls on any of the machines, from outside and from inside callbacks, there is the same history on the replacements, with the same effects on the client, of every machine the same callbacks called in the same order with the same payloads, the same deferred events waiting and the regions at paired locations, and every next call on any machine has the same outcome: the same answer, the same exception, the same kind of undefined behaviour, or no end on both.", "quantifier": "all families of machines that the check accepts, all callbacks (subject to which calls are compared), all histories of calls on any of the machines with returns and exceptions", "why_tests_cant": "Whether two designs of a machine can be told apart depends on everything callbacks of all machines of the program may do, at any depth; tests fix a program and a client.", "anchors": ["include/hsm/details/sm.h:37-44", "include/hsm/details/sm.h:88-173", "include/hsm/details/dispatch_table.h:54-162"]}
{"id": "C122", "title": "Refactorings of several machines of the amalgamated header at once: a check", "statement": "As C121 for machines built with gen/hsm.h: if the check of C113 accepts every machine of a program with its replacement, then all machines can be replaced at once and no client, whose callbacks may use any of the machines to any depth, sees a difference.", "quantifier": "all families of machines that the check accepts, all callbacks (subject to which calls are compared), all histories of calls on any of the machines with returns and exceptions", "why_tests_cant": "Whether two designs of a machine can be told apart depends on everything callbacks of all machines of the program may do, at any depth; tests fix a program and a client.", "anchors": ["include/hsm/gen/hsm.h:2300-2320", "include/hsm/gen/hsm.h:2351-2410"]}
{"id": "C123", "title": "The order of rows and rows that are not needed go unseen in programs of several machines", "statement": "A program has any number of machines, and callbacks of any of them may use any of them, to any depth. In the tables of all machines at once rows may be rearranged: in some neighbouring rows that do not compete are exchanged, any number of times (under the provisos of C67), in others a row that is not needed is removed or added (under the condition of C70). Clients that send only events both versions know and set only locations among those considered (for exchanges alone: all clients) see no difference: the same histories are possible, every machine calls the same callbacks with the same arguments and results in the same order, defers the same events, has as many active regions and is at the same locations, the client is in the same state, and the next call on any machine returns, throws, is undefined or does not end in the same way.", "quantifier": "all families of regular, scoped machines, all clients as described, all histories of calls on any of the machines with returns and exceptions", "why_tests_cant": "Whether two designs of a machine can be told apart depends on everything callbacks of all machines of the program may do, at any depth; tests fix a program and a client.", "anchors": ["include/hsm/details/flatten_internal_transition_table.h", "include/hsm/details/fill_dispatch_table.h:28-175", "include/hsm/details/sm.h:88-173"]}
{"id": "C124", "title": "The order of rows and rows that are not needed go unseen in programs of several machines of the amalgamated header", "statement": "As C123 for machines built with gen/hsm.h, under the provisos of C116.", "quantifier": "all families of regular, scoped machines, all clients as described, all histories of calls on any of the machines with returns and exceptions", "why_tests_cant": "Whether two designs of a machine can be told apart depends on everything callbacks of all machines of the program may do, at any depth; tests fix a program and a client.", "anchors": ["include/hsm/gen/hsm.h:2300-2320", "include/hsm/gen/hsm.h:2351-2410"]}
{"id": "C125", "title": "Both headers treat programs of several machines alike", "statement": "A program has any number of machines that defer nothing and whose internal rows are plain, and callbacks of any of them may send events and hand dependencies to any of them, to any depth, but do not look at what process_event returns and leave the none event as it is. Such a program does the same with gen/hsm.h as with the modular headers: every call on any machine has the same outcome and the same effects on all machines and on the user's world, only what it returns may differ; and the program can have reached a state after some calls with the one exactly if it can have reached the same state after the same calls with the other.", "quantifier": "all families of machines as described, all callbacks, all histories of calls on any of the machines with returns and exceptions, all depths of nesting", "why_tests_cant": "Agreement of two headers on one program says nothing about other tables or callbacks; here all are covered, with calls among any number of machines.", "anchors": ["include/hsm/details/sm.h:88-173", "include/hsm/gen/hsm.h:2351-2410"]}
{"id": "C126", "title": "In layered programs every machine behaves as if alone", "statement": "A program has any number of machines, and the callbacks of each only use machines of lower layers. Then every machine of the program behaves as a machine on its own whose callbacks call nothing: a call returns, throws or is undefined exactly as the call on its own, with the same effects on the machine, on the machines of lower layers and on the user's world; after every history of the program its members are those after some history of its own, in which the calls from outside occur in order. A call changes no other machine of the same or of a higher layer, and what it does does not depend on them.", "quantifier": "all families of machines, all callbacks that only use machines of lower layers, all histories of calls on any of the machines with returns and exceptions, all depths of nesting", "why_tests_cant": "Tests run single programs; this makes everything known of machines with plain callbacks hold in every layered program.", "anchors": ["include/hsm/details/sm.h:37-44", "include/hsm/details/sm.h:88-173", "include/hsm/details/dispatch_table.h:54-162"]}
{"id": "C127", "title": "Calls end in layered programs", "statement": "In a program whose callbacks only use machines of lower layers, every call ends if the calls of each machine on its own do, in particular if in every machine the anonymous rows are acyclic, whatever is deferred and however many regions there are; calls are nested no deeper than there are layers, and anonymous rounds in a row are as few as in the machine with the most. In every program of several machines a call that ends within some bounds ends the same with larger ones.", "quantifier": "all families of machines, all callbacks that only use machines of lower layers, all histories of calls on any of the machines, all bounds", "why_tests_cant": "That a call ends after every history, whatever the callbacks do, cannot be seen from finitely many runs.", "anchors": ["include/hsm/details/sm.h:88-173", "include/hsm/details/sm.h:224-275"]}
{"id": "C128", "title": "Layered programs with gen/hsm.h", "statement": "As C126 and C127 for machines built with gen/hsm.h: in a program whose callbacks only use machines of lower layers, every machine behaves as a machine on its own whose callbacks call nothing; a call changes no other machine of the same or of a higher layer and does not depend on them; and every call ends if the calls of each machine on its own do, in particular if in every machine the anonymous rows are acyclic.", "quantifier": "all families of machines, all callbacks that only use machines of lower layers, all histories of calls on any of the machines with returns and exceptions, all depths of nesting", "why_tests_cant": "Tests run single programs; this makes everything known of machines of gen/hsm.h with plain callbacks hold in every layered program.", "anchors": ["include/hsm/gen/hsm.h:2351-2410", "include/hsm/gen/hsm.h:2467-2501"]}
{"id": "C129", "title": "Layered programs of safe machines do nothing undefined", "statement": "In a program of several machines whose callbacks only use machines of lower layers, no loop of the library goes on over a table cell to which set_dependency pushed meanwhile, whatever else is wrong with the machines. If moreover the machines are safe in the sense of C59 and C99, no call on any of them has undefined behaviour, however often guards call other machines and set_dependency is called; and if the anonymous rows of every machine are acyclic, every call returns or throws. Both headers.", "quantifier": "all families of machines, all callbacks that only use machines of lower layers, all histories of calls on any of the machines with returns and exceptions, all depths of nesting", "why_tests_cant": "Whether a guard's call finds its way back to set_dependency of the machine whose table cell is being gone through depends on every callback of every machine; C117_safe and C118_safe need quiet guards or a program without set_dependency, this needs neither.", "anchors": ["include/hsm/details/sm.h:169-173", "include/hsm/details/sm.h:183-216", "include/hsm/gen/hsm.h:2403-2445"]}
{"id": "C130", "title": "The checkers for one machine hold in layered programs", "statement": "The checkers of C80, C84 and C103 look at one machine whose callbacks call nothing. In a program of several machines whose callbacks only use machines of lower layers they say just as much: after every history each machine is at a spot listed for it; if no step from a listed spot of any machine is undefined, the callbacks do nothing undefined themselves and all state objects exist, then no call of the program is undefined; and if a bound for the rounds of anonymous rows is found for every machine, every call ends within it, nested no deeper than there are layers. With the modular header set may be called by the client and by callbacks, only with arguments of lists given for each machine. Both headers.", "quantifier": "all families of machines accepted by the checkers, all callbacks that only use machines of lower layers, all histories of calls on any of the machines with returns and exceptions, all depths of nesting", "why_tests_cant": "The checker evaluates one machine at a time; this says that the result holds for every program built of such machines, whatever its callbacks do to machines of lower layers.", "anchors": ["include/hsm/details/sm.h:88-173", "include/hsm/details/sm.h:183-244", "include/hsm/gen/hsm.h:2351-2445"]}
{"id": "C131", "title": "Rules about what is observed hold in layered programs", "statement": "The checks of C86 and C104 decide, for one machine whose callbacks call nothing, whether a rule about the signs a client observes is kept: events sent, callbacks called, answers. In a program of several machines whose callbacks only use machines of lower layers, where clients and callbacks only send events, every rule a check accepts for a machine is kept by that machine as well: after every history of the program there is a sequence of signs of the machine on its own that keeps the rule, in which the callbacks are exactly those on record in the program and the events sent to the machine from outside the program occur in order. If the rule is about callbacks only, the record itself keeps it, up to every point. The turnstile of the examples keeps its promise whichever machines use it. Both headers.", "quantifier": "all families of machines, all monitors, all callbacks that only use machines of lower layers and do anything else, all histories of events sent to any of the machines with returns and exceptions, all depths of nesting", "why_tests_cant": "A test runs one program with one choice of callbacks; this is about all programs in which the machine is used, in any layer, and all prefixes of what happens.", "anchors": ["include/hsm/details/sm.h:88-107", "include/hsm/details/sm.h:183-272", "include/hsm/gen/hsm.h:2351-2445", "example/turnstile/main.cpp:28-44"]}
{"id": "C132", "title": "With the amalgamated header, too, callbacks that use machines keep them inside their declarations", "statement": "As C57, for machines built with gen/hsm.h: guards, actions and handlers may call process_event and set_dependency of the machine that is running them, nested to any depth. In every such history each region is, now, at every callback and before and after every move, at a declared location; and every move is to the destination of a declared external row, for history rows to the location remembered from the moves so far. The same holds of each of several machines if callbacks of any of them use any of them.", "quantifier": "all machines (families of machines) that compile and whose scopes are real, all callbacks, all histories, all depths of nesting", "why_tests_cant": "Tests run a few callbacks to a small depth; this is about all programs of callbacks that call back, in all interleavings, and about every point of every history.", "anchors": ["include/hsm/gen/hsm.h:2351-2445", "include/hsm/gen/hsm.h:2510-2545"]}
{"id": "C133", "title": "Guards that wait for each other never answer", "statement": "Consider calls of process_event such that the first row the machine tries for the event has a guard and this guard begins with another call of this kind, on the same machine or another one. None of these calls ends, however large the bounds on nesting and on anonymous rounds; in C++ the stack overflows. Hence the layers of C127 and C128 are needed: there are two machines without anonymous rows, the guard of each of which first sends an event to the other, such that no call of either ends. Both headers.", "quantifier": "all families of machines, all reachable states, all sets of calls that wait for each other, all callbacks otherwise, all bounds", "why_tests_cant": "A test that does not end says nothing; and no test shows that no bound is large enough.", "anchors": ["include/hsm/details/sm.h:183-216", "include/hsm/details/dispatch_table.h:85-115", "include/hsm/gen/hsm.h:2413-2445"]}
{"id": "C134", "title": "Names do not matter in programs of several machines", "statement": "C76 for programs of several machines whose callbacks use any of them, to any depth. Every machine gets new names for its states, callbacks and events (different things having different names), and callbacks use them when they call. Then every call of every machine has the same answer, the same exception, the same undefined behaviour or no end on both sides, and afterwards every machine of the one program is at the same slots as that of the other, with the same deferred events, history and regions, the same callbacks called under their new names, and the same world; after every history is() and status() of every machine answer the same. Every client has a counterpart that uses the new names. If callbacks do not use them this is false, also if the compiler accepts what they call.", "quantifier": "all families of machines, also rejected ones, all faithful renamings (one for each machine), all clients, all histories, all depths of nesting, all bounds", "why_tests_cant": "A test has one set of names; nothing in it shows that the order of type ids, hashes or indices does not depend on them, for any program.", "anchors": ["include/hsm/details/sm.h:88-335", "include/hsm/details/index_map.h:1-40", "include/hsm/details/idx.h:1-60"]}
{"id": "C135", "title": "gen/hsm.h: names do not matter", "statement": "C76 and C134 for machines of the amalgamated header. New names for states, callbacks and events (for each machine its own, different things having different names) change nothing: the compiler accepts both machines or neither, the objects constructed have the same numbers everywhere, and in programs of several machines whose callbacks call process_event or set_dependency of any of them, to any depth and under the new names, every call has the same outcome, and every history exists under the new names with the same slots, history, deferred events and world, and the same callbacks called under their new names. If callbacks do not use the new names, this is false, also if the compiler accepts what they call.", "quantifier": "all families of machines, also rejected ones, all faithful renamings (one for each machine), all clients, all histories, all depths of nesting, all bounds", "why_tests_cant": "A test has one set of names; nothing in it shows that the order of type ids, hashes or indices does not depend on them, for any program.", "anchors": ["include/hsm/gen/hsm.h:1346-1452", "include/hsm/gen/hsm.h:2300-2602"]}
{"id": "C136", "title": "Programs can be parts of larger programs", "statement": "A program of several machines, whose callbacks use any of them, is part of a larger program: its machines are some of the machines there, and its variables some of the variables. Then every call of its machines has the same outcome in both programs, with the same effects on its machines and variables, and changes nothing else, no other machine and no other variable. Everything the program can do by itself it can do in every larger program that can be constructed. If callbacks of the other machines do not call its machines, then after every history of the larger program its machines are as after a history of its own, which consists exactly of the calls of its machines made from outside, in the same order, whatever the others do to its variables; every further call has the outcome it has then, so that a program without undefined behaviour has none in the larger one; two programs side by side are two such parts. If the others call its machines, this is false. All of this holds for both headers.", "quantifier": "all families of machines and all embeddings into larger families, all clients, all divisions of the variables, all histories, all depths of nesting, all bounds", "why_tests_cant": "A test has one surrounding program; that no surrounding program makes a difference is a statement about all of them.", "anchors": ["include/hsm/details/sm.h:37-173", "include/hsm/gen/hsm.h:2300-2410"]}
{"id": "C137", "title": "Calls of independent programs commute", "statement": "Two programs are parts of a larger program, with no machine and no variable in common, and their callbacks use their own machines and variables only. If a call of a machine of the one and then a call of a machine of the other both return or throw, then in the other order each returns or throws the same, and all machines and all variables are left the same. For two programs side by side, a sequence of calls that all return or throw can be put into every order that keeps the order in each program: every call is answered the same, and the same is left. One of two programs side by side can be replaced by another, also one with other machines and variables: if the other answers all sequences of calls as the first does, then so do the two together. If the two programs share variables this is false, even if they have no machine in common. All of this holds for both headers.", "quantifier": "all larger programs and all pairs of independent parts, all states, all calls, all finite sequences of calls and all their interleavings, all depths of nesting, all bounds", "why_tests_cant": "The number of interleavings of two sequences grows exponentially in their length, and the sequences, programs and states are unbounded.", "anchors": ["include/hsm/details/sm.h:37-173", "include/hsm/gen/hsm.h:2300-2410"]}
{"id": "C138", "title": "Callbacks may ask machines where they are", "statement": "Callbacks of any machine may, besides calling any machine, ask any machine with is, parent_is and status, also the one that is just running, and decide by the answers what to do next. A question changes no machine and no variable, and is answered by the place at which the machine asked is when the question is put. Every machine is always, and was at each of its callbacks and before and after each of its moves, at declared locations; every move is to the destination of a declared external row, and every move and every callback of a row has consent of its guard. Every move of a machine whose guards neither call nor ask is one of a row applicable where it was. Questions to safe machines are never undefined, and a program of safe machines has no undefined behaviour at all if, for each machine, its guards neither call nor ask or no callback calls its set_dependency. Callbacks of every machine are those its tables provide for. A call changes no machine that is not called, even if it is asked. If callbacks ask nothing, calls do what they do without questions.", "quantifier": "all families of machines, all callbacks that call and ask any of them adaptively, all histories of calls from outside, all questions, all depths of nesting, all bounds", "why_tests_cant": "Callbacks are arbitrary adaptive programs over unboundedly many calls and questions, and a question may be put at any point of a run of any machine.", "anchors": ["include/hsm/details/sm.h:88-173", "include/hsm/details/dispatch_table.h:54-162"]}
{"id": "C139", "title": "Callbacks may ask machines of the amalgamated header", "statement": "With gen/hsm.h too, callbacks of any machine may, besides calling any machine, ask any machine with is, parent_is and status, also the one that is just running, and decide by the answers what to do next. A question changes no machine and no variable, and is answered by the place at which the machine asked is when the question is put. Every machine is always, and was at each of its callbacks and before and after each of its moves, at declared locations; every move is to the destination of a declared external row, and every move and every callback of a row has consent of its guard. Every move of a machine whose guards neither call nor ask is one of a row applicable where it was. Questions to safe machines are never undefined, and a program of safe machines has no undefined behaviour at all if, for each machine, its guards neither call nor ask or no callback calls its set_dependency. Callbacks of every machine are those its tables provide for. A call changes no machine that is not called, even if it is asked. If callbacks ask nothing, calls do what they do without questions.", "quantifier": "all families of machines built with gen/hsm.h, all callbacks that call and ask any of them adaptively, all histories of calls from outside, all questions, all depths of nesting, all bounds", "why_tests_cant": "Callbacks are arbitrary adaptive programs over unboundedly many calls and questions, and a question may be put at any point of a run of any machine.", "anchors": ["include/hsm/gen/hsm.h:2351-2410"]}
