{"claims": [
  {"property": "C01", "status": "proved", "theorems": ["Hsm.C01_consulted", "Hsm.C01_none_missing"], "note": "For regular machines (accepted, finitely nested, root not a state of its own machine, size < 2^64). After set_dependency the candidate list is repeated once per dependency, latest first."},
  {"property": "C02", "status": "proved", "theorems": ["Hsm.Machine.C02_encoding"], "note": ""},
  {"property": "C03", "status": "proved", "theorems": ["Hsm.C03_one_place"], "note": "For all machines with real scopes (weaker than safe). There is a location such that parent_is, is(state) and is(parent,state) answer true exactly for it, for all names including ones that are not part of the machine."},
  {"property": "C04", "status": "proved", "theorems": ["Hsm.C04_set", "Hsm.C04_set_is", "Hsm.C04_out_of_range", "Hsm.C04_slots"], "note": "The number of slots is characterised by C04_slots."},
  {"property": "C05", "status": "partial", "theorems": ["Hsm.C05_partial", "Hsm.C05_refuted"], "note": "The full claim is false of the code: C05_refuted gives machines that read an uninitialised slot, index the history out of bounds, dereference a null transition or a missing object, or cannot be constructed. C05_partial proves it for safe machines: real scopes, no composite with more regions than the root (equally many if history is used), the none event not deferred, all objects exist, callbacks themselves defined. Which calls are undefined in general, and how, is given exactly by the reference interpreter (C77_undefined)."},
  {"property": "C06", "status": "proved", "theorems": ["Hsm.Machine.C06_fill", "Hsm.C06_construct", "Hsm.Machine.C06_targets"], "note": "Also covers composites owning internal rows, and the constructor as a whole."},
  {"property": "C07", "status": "proved", "theorems": ["Hsm.C07_process", "Hsm.C07_process_throw", "Hsm.C07_region", "Hsm.C07_first"], "note": "Each candidate occurrence is tried at most once; a declared row can occur more than once among the candidates (see C48). C07_first: a row fires exactly if one is FirstEnabled, and then it is that one."},
  {"property": "C08", "status": "proved", "theorems": ["Hsm.C08_result"], "note": ""},
  {"property": "C09", "status": "proved", "theorems": ["Hsm.C09_handler", "Hsm.C09_handler_throw"], "note": ""},
  {"property": "C10", "status": "proved", "theorems": ["Hsm.C10_untouched"], "note": ""},
  {"property": "C100", "status": "proved", "theorems": ["Hsm.C100_locations", "Hsm.C100_callbacks", "Hsm.C100_closed"], "note": "Counterpart of C64 and C94 for the amalgamated header. Locations are over-approximated: it is not said that each location of ReachesG is reached."},
  {"property": "C101", "status": "proved", "theorems": ["Hsm.C101_calls", "Hsm.C101_quiet", "Hsm.C101_acyclic", "Hsm.C101_amalgamated"], "note": "For gen/hsm.h the bound is in terms of the number of rounds of anonymous rows; C102_work bounds that number for acyclic anonymous rows."},
  {"property": "C102", "status": "proved", "theorems": ["Hsm.C102_acyclic", "Hsm.C102_fuel", "Hsm.C102_work", "Hsm.C102_ends", "Hsm.C102_bounds", "Hsm.Ex.C102_mesh", "Hsm.Ex.C102_refuted", "Hsm.Ex.C102_spin"], "note": "With nested calls, termination for machines that do not both defer events and have regions; for the others a counterexample."},
  {"property": "C103", "status": "proved", "theorems": ["Hsm.C103_places", "Hsm.C103_undefined", "Hsm.C103_closed", "Hsm.C103_safe", "Hsm.C103_defined", "Hsm.C103_found", "Hsm.C103_visited", "Hsm.C103_listed", "Hsm.C103_exact", "Hsm.C103_returns", "Hsm.C103_either", "Hsm.C103_hangs", "Hsm.C103_ends", "Hsm.C103_uniform", "Hsm.C103_defer_needed"], "note": "Soundness for all machines; exactness if nothing is deferred or there is one region; C103_defer_needed shows that this is needed."},
  {"property": "C104", "status": "proved", "theorems": ["Hsm.C104_keeps", "Hsm.C104_prefix", "Hsm.C104_broken", "Hsm.C104_exact", "Hsm.C104_decides", "Hsm.C104_found"], "note": "Soundness and exactness for all machines; termination of the check if nothing is deferred and the monitor is finite."},
  {"property": "C105", "status": "proved", "theorems": ["Hsm.C105_refines", "Hsm.C105_nowhere", "Hsm.C105_apart", "Hsm.C105_decides", "Hsm.C105_found", "Hsm.C105_either"], "note": "Soundness in both directions for all machines; an answer is guaranteed if nothing is deferred and the second machine has no endless anonymous rows. The value returned by the modular process_event is not compared, as gen/hsm.h returns none."},
  {"property": "C106", "status": "proved", "theorems": ["Hsm.C106_same", "Hsm.C106_life", "Hsm.C106_gone", "Hsm.C106_silent", "Hsm.C106_left", "Hsm.C106_swapped", "Hsm.C106_refilled", "Hsm.Ex.C106_use_after_move"], "note": "C106_refilled is for machines without orthogonal regions and anonymous rows. That moved-from deques are empty is taken from the usual implementations of the standard library."},
  {"property": "C107", "status": "proved", "theorems": ["Hsm.C107_replaces", "Hsm.C107_interchangeable"], "note": "For machines that defer nothing and clients that neither send nor change events of type none. The value returned by the modular process_event is not compared, as gen/hsm.h returns none."},
  {"property": "C108", "status": "proved", "theorems": ["Hsm.C108_determines", "Hsm.C108_recovers", "Hsm.C108_stuck", "Hsm.C108_decides", "Hsm.C108_found", "Hsm.Programs.C108_turnstile", "Hsm.Programs.C108_cdplayer"], "note": "The modular half repeats C88. That the computation ends (C108_found) is for machines that defer nothing."},
  {"property": "C109", "status": "proved", "theorems": ["Hsm.C109_moves", "Hsm.C109_actions"], "note": "That the row applies where the region is when it fires is C111 (false if guards use the machine)."},
  {"property": "C11", "status": "proved", "theorems": ["Hsm.C11_internal"], "note": "The row's composite's first initial state's on_entry can run when the internal row belongs to a composite child; the state itself gets neither on_exit nor on_entry."},
  {"property": "C110", "status": "proved", "theorems": ["Hsm.C110_declared", "Hsm.C110_elsewhere"], "note": "C110_declared: the last sentence is the parameter sem.QuietGuards of DeclaredG. C110_elsewhere shows that this condition is needed."},
  {"property": "C111", "status": "partial", "theorems": ["Hsm.C111_partial", "Hsm.C111_refuted"], "note": "Refuted: a guard that sends an event and says yes makes the row fire from another state. Partial: if guards make no calls; all other callbacks may make any. Missing: guards that call the machine; for them C109_moves says that the row applied where the region had been before."},
  {"property": "C112", "status": "proved", "theorems": ["Hsm.C112_same", "Hsm.C112_same_states", "Hsm.C112_needed"], "note": "The check is sound, not complete: it compares candidates one by one, and locations without regard to where other regions are or what composites remember. C112_needed: the check of C85 is not enough."},
  {"property": "C113", "status": "proved", "theorems": ["Hsm.C113_same"], "note": "Sound, not complete, as C112. gen/hsm.h has no set."},
  {"property": "C114", "status": "proved", "theorems": ["Hsm.C114_order", "Hsm.C114_order_back", "Hsm.C114_remove", "Hsm.C114_add"], "note": "C67 and C70 for clients whose callbacks use the machine; unlike there the log of moves (which is not visible to clients) is not compared."},
  {"property": "C115", "status": "partial", "theorems": ["Hsm.Programs.C115_lap_partial", "Hsm.Programs.C115_variant_partial", "Hsm.Programs.C115_refuted_switch", "Hsm.Programs.C115_refuted_guard", "Hsm.Programs.C115_refuted_lap"], "note": "False in general (three refutations). Proved: equal up to the first round for all guards and actions, if the switch started in S1; variant and switch equal if the guard says yes. The versions built with other libraries (sml, euml, statechart) are not modelled; callbacks do not throw."},
  {"property": "C116", "status": "proved", "theorems": ["Hsm.C116_order", "Hsm.C116_order_back", "Hsm.C116_remove", "Hsm.C116_add", "Hsm.C116_compete"], "note": "C67, C70 and C114 for gen/hsm.h. The provisos are those of C67 and C70 for the modular header; they also look at internal rows of simple states, which this header ignores."},
  {"property": "C117", "status": "proved", "theorems": ["Hsm.C117_places", "Hsm.C117_moves", "Hsm.C117_actions", "Hsm.C117_declared", "Hsm.C117_sources", "Hsm.C117_only_iterators", "Hsm.C117_safe", "Hsm.C117_untouched", "Hsm.C117_alone", "Hsm.C117_round_trip"], "note": "For the modular header. Machines have members only and no static data, so that they share nothing but what callbacks share. One type of payloads for all machines. Callbacks that also ask: C138."},
  {"property": "C118", "status": "proved", "theorems": ["Hsm.C118_moves", "Hsm.C118_actions", "Hsm.C118_declared", "Hsm.C118_sources", "Hsm.C118_only_iterators", "Hsm.C118_safe", "Hsm.C118_untouched", "Hsm.C118_alone", "Hsm.C118_round_trip"], "note": "For the amalgamated header. One type of payloads for all machines. Callbacks that also ask: C139."},
  {"property": "C119", "status": "proved", "theorems": ["Hsm.C119_step", "Hsm.C119_construct", "Hsm.C119_history", "Hsm.C119_undefined", "Hsm.C119_reach"], "note": "For the modular header, regular machines and callbacks whose calls pass the static assertions. `fuel` bounds the anonymous loop and `n` the nesting; running out stands for a call that does not return."},
  {"property": "C12", "status": "proved", "theorems": ["Hsm.C12_order", "Hsm.C12_order_throw", "Hsm.C07_process", "Hsm.C07_process_throw"], "note": ""},
  {"property": "C120", "status": "proved", "theorems": ["Hsm.C120_step", "Hsm.C120_construct", "Hsm.C120_history", "Hsm.C120_undefined", "Hsm.C120_reach"], "note": "For the amalgamated header."},
  {"property": "C121", "status": "proved", "theorems": ["Hsm.C121_same"], "note": "For the modular header. As in C112 `set` is compared for locations paired with themselves."},
  {"property": "C122", "status": "proved", "theorems": ["Hsm.C122_same"], "note": "For the amalgamated header."},
  {"property": "C123", "status": "proved", "theorems": ["Hsm.C123_tidy", "Hsm.C123_order"], "note": "For the modular header; `Tidied` is symmetric, so it also says that nothing new becomes possible."},
  {"property": "C124", "status": "proved", "theorems": ["Hsm.C124_tidy", "Hsm.C124_order"], "note": "For the amalgamated header."},
  {"property": "C125", "status": "proved", "theorems": ["Hsm.C125_step", "Hsm.C125_runs"], "note": "The conditions are needed already for one machine (C61, C98_refuted)."},
  {"property": "C126", "status": "proved", "theorems": ["Hsm.C126_alone", "Hsm.C126_step", "Hsm.C126_others", "Hsm.C126_lower"], "note": "Exceptions are the same up to their number. The machine on its own keeps its calls of other machines inside its callbacks' effects on the world."},
  {"property": "C127", "status": "proved", "theorems": ["Hsm.C127_bounds", "Hsm.C127_ends", "Hsm.C127_acyclic"], "note": ""},
  {"property": "C128", "status": "proved", "theorems": ["Hsm.C128_alone", "Hsm.C128_step", "Hsm.C128_others", "Hsm.C128_lower", "Hsm.C128_bounds", "Hsm.C128_ends", "Hsm.C128_acyclic"], "note": "Exceptions are the same up to their number."},
  {"property": "C129", "status": "proved", "theorems": ["Hsm.C129_iterators", "Hsm.C129_safe", "Hsm.C129_returns", "Hsm.C129_iteratorsG", "Hsm.C129_safeG", "Hsm.C129_returnsG"], "note": "Machines that are not safe may still do something undefined of another kind (C59, C99)."},
  {"property": "C13", "status": "proved", "theorems": ["Hsm.C13_action_throw", "Hsm.C13_stops", "Hsm.C07_process_throw"], "note": ""},
  {"property": "C130", "status": "proved", "theorems": ["Hsm.C130_alone", "Hsm.C130_places", "Hsm.C130_defined", "Hsm.C130_ends", "Hsm.C130_placesG", "Hsm.C130_definedG", "Hsm.C130_endsG"], "note": "Exactness is that of C80, C84 and C103 for programs of one machine; larger programs may be fine although a machine is rejected, as their callbacks need not do everything callbacks can."},
  {"property": "C131", "status": "proved", "theorems": ["Hsm.C131_keeps", "Hsm.C131_record", "Hsm.C131_keepsG", "Hsm.C131_recordG", "Hsm.Programs.C131_turnstile", "Hsm.Programs.C131_turnstileG"], "note": "Clients and callbacks send events only, as in C86; undefined calls and calls that do not end are not part of histories."},
  {"property": "C132", "status": "proved", "theorems": ["Hsm.C132_places", "Hsm.C132_several"], "note": "Counterpart of C57_places and C117_places."},
  {"property": "C133", "status": "proved", "theorems": ["Hsm.C133_waits", "Hsm.C133_waitsG", "Hsm.C133_rivals", "Hsm.C133_rivalsG"], "note": "Not ending is: not ending within any bound on nesting. The stack of the C++ program is not modelled."},
  {"property": "C134", "status": "proved", "theorems": ["Hsm.C134_step", "Hsm.C134_runs", "Hsm.C134_observe", "Hsm.SemS.rename_renamed", "Hsm.C134_refuted_old_names"], "note": "For the modular header. One machine used by its own callbacks is a family of one."},
  {"property": "C135", "status": "proved", "theorems": ["Hsm.Renamed.C135_construct", "Hsm.C135_step", "Hsm.C135_runs", "Hsm.C135_refuted_old_names"], "note": "What is() and status() answer then follows from C134_observe, since they are the same functions in both headers. SemS.rename_renamed gives every client its counterpart."},
  {"property": "C136", "status": "proved", "theorems": ["Hsm.C136_step", "Hsm.C136_stepG", "Hsm.C136_runs", "Hsm.C136_runsG", "Hsm.C136_beside", "Hsm.C136_besideG", "Hsm.C136_within", "Hsm.C136_withinG", "Hsm.C136_answers", "Hsm.C136_answersG", "Hsm.C136_safe", "Hsm.C136_safeG", "Hsm.C136_refuted_called"], "note": "With a bijection between the machines it says that it does not matter which object is which. C117_alone and C118_alone are about parts of one machine."},
  {"property": "C137", "status": "proved", "theorems": ["Hsm.C137_commute", "Hsm.C137_commuteG", "Hsm.C137_order", "Hsm.C137_orderG", "Hsm.C137_replace", "Hsm.C137_replaceG", "Hsm.C137_refuted_shared"], "note": "About calls made one after the other by one thread; the code has no threads. Callbacks may make calls while they run (C136)."},
  {"property": "C138", "status": "proved", "theorems": ["Hsm.C138_question", "Hsm.C138_ask", "Hsm.C138_answer", "Hsm.C138_status", "Hsm.C138_region", "Hsm.C138_places", "Hsm.C138_moves", "Hsm.C138_actions", "Hsm.C138_sources", "Hsm.C138_only_iterators", "Hsm.C138_safe", "Hsm.C138_declared", "Hsm.C138_untouched", "Hsm.C138_conservative"], "note": "status is asked by comparison with any list of records; C44 renders them as text. is(region, parent, state) answers as in C53: the parent is that of region 0."},
  {"property": "C139", "status": "proved", "theorems": ["Hsm.C139_question", "Hsm.C139_ask", "Hsm.C139_answer", "Hsm.C139_status", "Hsm.C139_region", "Hsm.C139_places", "Hsm.C139_moves", "Hsm.C139_actions", "Hsm.C139_sources", "Hsm.C139_only_iterators", "Hsm.C139_safe", "Hsm.C139_declared", "Hsm.C139_untouched", "Hsm.C139_conservative"], "note": "status is asked by comparison with any list of records. is(region, parent, state) answers as in C53: the parent is that of region 0."},
  {"property": "C14", "status": "proved", "theorems": ["Hsm.C14_guard_throw", "Hsm.C07_process_throw"], "note": ""},
  {"property": "C15", "status": "proved", "theorems": ["Hsm.C15_regions"], "note": ""},
  {"property": "C16", "status": "proved", "theorems": ["Hsm.C16_composite_row"], "note": ""},
  {"property": "C17", "status": "partial", "theorems": ["Hsm.C17_partial", "Hsm.C17_refuted", "Hsm.Machine.C17_exact"], "note": "False of the code: a row on a composite does not apply in composites nested in it (C17_refuted). Proved for depth one. C17_exact says where such a row is a candidate: in the direct children of the composite (and at the composite's own location), nowhere else."},
  {"property": "C18", "status": "proved", "theorems": ["Hsm.C18_defer"], "note": ""},
  {"property": "C19", "status": "proved", "theorems": ["Hsm.C19_queue"], "note": ""},
  {"property": "C20", "status": "proved", "theorems": ["Hsm.C20_replays", "Hsm.C20_waits", "Hsm.C20_bounded"], "note": ""},
  {"property": "C21", "status": "partial", "theorems": ["Hsm.C21_partial", "Hsm.C21_refuted"], "note": "False of the code: a replayed event that no row accepts and no state defers is dropped without a report (C21_refuted). Proved: it leaves the queue only when replayed, and is then accepted, queued again, or dropped, the last only if no active region has an unguarded row or a deferral for it."},
  {"property": "C22", "status": "partial", "theorems": ["Hsm.C22_partial", "Hsm.C22_refuted"], "note": "Fails in general: when the only anonymous rows of a machine are internal ones, has_anonymous_transition is false and they never run (C22_refuted, witness Ex.innerAnon). C22_partial proves the claim for all one-region machines with an external anonymous row or without internal ones."},
  {"property": "C23", "status": "partial", "theorems": ["Hsm.C23_partial", "Hsm.C23_refuted"], "note": "Fails in general: the anonymous loop returns as soon as one region has no anonymous candidates, later regions starve (C23_refuted, witness Ex.starving). C23_partial covers final configurations where every region has anonymous candidates, except when a replayed event was accepted in one region and deferred again in a later one."},
  {"property": "C24", "status": "proved", "theorems": ["Hsm.C24_terminates", "Hsm.C24_diverges"], "note": "Termination with explicit bound on anonymous rounds in a row (slots * largest rank + 1); divergence of unguarded anonymous self-loops for every fuel in safe one-region machines whose actions do not throw."},
  {"property": "C25", "status": "proved", "theorems": ["Hsm.C25_history"], "note": "Over the ghost list of moves of every history (set, set_dependency and exceptions included): every move is that of a declared external row applicable where the region was, and history rows lead to the location left last in the composite, or its first initial state."},
  {"property": "C26", "status": "partial", "theorems": ["Hsm.C26_partial", "Hsm.C26_exact", "Hsm.C26_refuted"], "note": "Fails in general: the location is remembered for the composite region 0 is in (C26_refuted, witness Ex.forgetful, a safe machine). C26_partial proves it for moves where region 0 and the region concerned were in the same composite whenever the latter moved. C26_exact says without this condition where history rows lead."},
  {"property": "C27", "status": "partial", "theorems": ["Hsm.C27_partial", "Hsm.C27_refuted"], "note": "Refuted: the unexpected-event handler and fall-back rows keep the old dependency. Proved: any other dependency is only used after all applicable rows' guards said no with the new one."},
  {"property": "C28", "status": "proved", "theorems": ["Hsm.C28_constant", "Hsm.C28_first", "Hsm.C28_region"], "note": "No set_dependency: constant. After it: the first guard or action at every location gets the new one."},
  {"property": "C29", "status": "partial", "theorems": ["Hsm.C29_partial", "Hsm.C29_history_partial", "Hsm.C29_refuted"], "note": "Fails for rows whose source is marked initial (and for direct sources): C29_refuted, witness Ex.starred. C29_partial: when a row fires, exit action first and once for plain and exit-point sources; C29_history_partial: the same for every move in the history of a machine away from a state named plainly (PlainLeave). Missing: initial and direct sources, children of a composite that is left (false there)."},
  {"property": "C30", "status": "partial", "theorems": ["Hsm.C30_partial", "Hsm.C30_history_partial", "Hsm.C30_refuted"], "note": "Fails for entry, direct and history targets: C30_refuted on Ex.demo. C30_partial: entry action once, after the row's action, for plain targets, then that of the first initial state of a composite target; and for every state entered plainly (PlainEnter), unless a callback of the row throws. Missing: pseudo state targets (false there)."},
  {"property": "C31", "status": "proved", "theorems": ["Hsm.Machine.C31_rows_in_force", "Hsm.Machine.C31_order", "Hsm.Machine.C31_collected"], "note": ""},
  {"property": "C32", "status": "proved", "theorems": ["Hsm.C32_composite", "Hsm.C32_simple", "Hsm.C32_only"], "note": ""},
  {"property": "C33", "status": "partial", "theorems": ["Hsm.C33_partial", "Hsm.C33_history_partial", "Hsm.C33_refuted"], "note": "Fails for composites with more than one region: C33_refuted on Ex.orth. C33_partial: the region that fired is at the first initial state, no other region moves, the number of active regions is that of region 0's composite. Missing: the other regions of the composite (false there)."},
  {"property": "C34", "status": "proved", "theorems": ["Hsm.C34_event", "Hsm.C34_regions"], "note": "C34_event: one call of process_event, returning or throwing. C34_regions: construction, histories without set, set and set_dependency."},
  {"property": "C35", "status": "proved", "theorems": ["Hsm.C35_fifo", "Hsm.C35_visit"], "note": "For all terminating programs over one queue, including callables that push, visit, throw and catch; std::queue is modelled by a list, std::variant by index and value."},
  {"property": "C36", "status": "proved", "theorems": ["Hsm.Uptr.C36_sound", "Hsm.Uptr.C36_no_leak", "Hsm.Uptr.C36_all_deleted", "Hsm.Uptr.C36_assign"], "note": "Heap model; for all operation lists in which handles are used within their lifetime and raw pointers by their owner. Destructors of T are assumed not to touch handles."},
  {"property": "C37", "status": "partial", "theorems": ["Hsm.Dsl.C37_partial", "Hsm.Dsl.C37_plain", "Hsm.Dsl.C37_pseudo_target", "Hsm.Dsl.C37_internal", "Hsm.Dsl.C37_internal_parens", "Hsm.Dsl.C37_refuted", "Hsm.Dsl.C37_transition_refuted"], "note": "Overload resolution on the DSL values and the C++ operator precedence are modelled by a parser. Missing: rows the code does not accept (prefix anonymous rows with a guard, an action or an initial source; '+ event / action' without parentheses) and hsm::transition with an initial source, which gives another source type; both are refuted."},
  {"property": "C38", "status": "proved", "theorems": ["Hsm.C38_ok", "Hsm.C38_throw", "Hsm.C38_ub", "Hsm.C38_assoc", "Hsm.C38_trivial", "Hsm.C38_copies", "Hsm.C38_objects"], "note": "For all lists of actions, all behaviours; also that actions with own state are copied on every call."},
  {"property": "C39", "status": "proved", "theorems": ["Hsm.C39_exists", "Hsm.C39_create", "Hsm.C39_stays", "Hsm.C39_guard", "Hsm.C39_source", "Hsm.C39_reuse", "Hsm.C39_chain"], "note": "For all histories of machines whose actions are built from user actions, create_state, reuse_state and chain_actions. The property holds of factories that return non-null; with a null result the object is gone, and the theorems say so. Consequence: a guard on the row that creates the object is undefined on first entry."},
  {"property": "C40", "status": "proved", "theorems": ["Hsm.C40_absent", "Hsm.C40_once", "Hsm.C40_duplicate"], "note": "The duplicate case assumes a list shorter than 2^32."},
  {"property": "C41", "status": "proved", "theorems": ["Hsm.C41_calls", "Hsm.C41_moves", "Hsm.C41_order", "Hsm.C41_chronicle"], "note": "Every entry of the callback trace is justified by a row (or the root's handler) and every move in the log has its guard just before and its callbacks just after; C41_chronicle partitions every trace into such items, so nothing is called for two reasons; for all histories."},
  {"property": "C42", "status": "proved", "theorems": ["Hsm.C42_origin", "Hsm.C42_children"], "note": "C42_origin holds for all regular machines, not only safe ones; C42_children needs scopes to be real (Scoped)."},
  {"property": "C43", "status": "proved", "theorems": ["Hsm.C43_payload", "Hsm.C43_payload_throw"], "note": ""},
  {"property": "C44", "status": "proved", "theorems": ["Hsm.C44_status", "Hsm.C44_location", "Hsm.C44_parent_refuted"], "note": "Records, order and injectivity of the text. In addition C44_parent_refuted: the parent number in the record of region i is that of region 0, not of region i."},
  {"property": "C45", "status": "proved", "theorems": ["Hsm.C45_order"], "note": ""},
  {"property": "C46", "status": "proved", "theorems": ["Hsm.C46_initial"], "note": ""},
  {"property": "C47", "status": "proved", "theorems": ["Hsm.C47_uniq"], "note": ""},
  {"property": "C48", "status": "partial", "theorems": ["Hsm.C48_partial", "Hsm.C48_refuted", "Hsm.C75_asked"], "note": "Refuted: a composite led into by k rows is flattened k times and its guards are called k times. Proved when each composite is led into by at most one row. The exact number is C75."},
  {"property": "C49", "status": "proved", "theorems": ["Hsm.C49_returns", "Hsm.C49_throws", "Hsm.C49_unique"], "note": "Converse of C07: the relations EventRun/EventThrow of SpecStep are exactly what process_event does when every state object exists; uniqueness follows. Termination of anonymous rounds is not claimed (the fuel is existential)."},
  {"property": "C50", "status": "proved", "theorems": ["Hsm.C50_priority"], "note": "For internal rows of one table it is assumed that the tables applying at the location do not contain copies of each other's rows (duplicates are removed by type)."},
  {"property": "C51", "status": "partial", "theorems": ["Hsm.C51_partial", "Hsm.C51_refuted"], "note": "Refuted for composites entered only through entry, direct or history pseudo states; proved for the root and for composites entered through plain targets."},
  {"property": "C52", "status": "partial", "theorems": ["Hsm.C52_partial", "Hsm.C52_outer_first", "Hsm.C52_refuted"], "note": "Refuted: a row on a composite declared after the rows that lead into the composite is tried before the inner rows (C52_outer_first proves this in general). Proved when a row leading into the composite follows in the same table."},
  {"property": "C53", "status": "partial", "theorems": ["Hsm.C53_partial", "Hsm.C53_answer", "Hsm.C53_out_of_range", "Hsm.C53_refuted"], "note": "Refuted: the parent compared is that of region 0. C53_answer says exactly what is answered."},
  {"property": "C54", "status": "proved", "theorems": ["Hsm.C54_compiles"], "note": "For every machine, regular or not. Macro-level parse errors and errors inside user code are outside the model."},
  {"property": "C55", "status": "proved", "theorems": ["Hsm.C55_objects", "Hsm.C55_calls"], "note": "The map as the zip of two separately computed lists; C55_calls: every object handed to a callback in any history is found in it."},
  {"property": "C56", "status": "partial", "theorems": ["Hsm.C56_partial", "Hsm.C56_hangs", "Hsm.C56_refuted"], "note": "Refuted for 256 or more regions: the 8 bit counter never reaches the bound, the constructor does not return (C56_hangs, C56_refuted). Partial: with at most 255 regions per composite the loops with the 8 bit counter equal the list loops for construction, process_event and status on every reachable machine. Missing: more than 255 regions."},
  {"property": "C57", "status": "proved", "theorems": ["Hsm.C57_places", "Hsm.C57_conservative"], "note": "Callbacks are programs over process_event, set and set_dependency, nested to any depth. C57_conservative: without calls the model is that of Runtime.lean."},
  {"property": "C58", "status": "partial", "theorems": ["Hsm.C58_partial", "Hsm.C58_refuted"], "note": "Refuted: a guard that sends an event and says yes makes the row fire from another state. Partial: if guards make no calls; all other callbacks may make any. Missing: guards that call the machine; for them C95_moves says that the row applied where the region had been before."},
  {"property": "C59", "status": "partial", "theorems": ["Hsm.C59_partial", "Hsm.C59_only_iterators", "Hsm.C59_refuted"], "note": "Refuted: a guard that calls set_dependency and says no leaves the loop with an invalidated iterator. Partial: if guards make no calls, or no callback calls set_dependency, there is no undefined behaviour; C59_only_iterators: without this restriction invalidated iterators are the only undefined behaviour. Missing: guards that (directly or through nested calls) reach set_dependency."},
  {"property": "C60", "status": "partial", "theorems": ["Hsm.C60_partial", "Hsm.C60_refuted"], "note": "Refuted: the library handles events sent by callbacks at once, inside the move. Partial: callbacks that make no calls. Missing: callbacks that call the machine (false there)."},
  {"property": "C61", "status": "partial", "theorems": ["Hsm.C61_partial", "Hsm.C61_process", "Hsm.C61_process_throw", "Hsm.C61_refuted_deferral", "Hsm.C61_refuted_internal", "Hsm.C61_refuted_order"], "note": "Refuted in three ways. Partial: machines that defer nothing, whose simple states have no internal rows and whose internal rows mention no exit or direct entry points reach exactly the same states. C61_process says what a call does when events are deferred. Missing: the rest (false there)."},
  {"property": "C62", "status": "partial", "theorems": ["Hsm.C62_partial", "Hsm.C62_refuted_order", "Hsm.C62_refuted_effect", "Hsm.C62_all_partial"], "note": "Refuted: after a deferred or rejected event the oldest waiting event is replayed. Partial: per call the event may be appended, then at most one event, the oldest, leaves the queue and may be appended again. Missing: arrival order and no effect of rejected events (false). The _all theorem needs neither plain internal rows nor callbacks that keep the none event."},
  {"property": "C63", "status": "partial", "theorems": ["Hsm.C63_partial", "Hsm.C63_refuted", "Hsm.C63_all_partial"], "note": "Refuted as C05. Partial: all safe machines of this header (C63_all_partial; C63_partial is the special case of plain internal rows). Missing: other machines (false for some)."},
  {"property": "C64", "status": "proved", "theorems": ["Hsm.C64_locations", "Hsm.C64_callbacks", "Hsm.C64_closed"], "note": "Reaches is an inductive relation over the declared rows. C64_closed is the version one checks on the tables."},
  {"property": "C65", "status": "partial", "theorems": ["Hsm.C65_partial", "Hsm.C65_conditions_partial", "Hsm.C65_exact_partial", "Hsm.C65_refuted_anonymous", "Hsm.C65_refuted_history", "Hsm.C65_refuted_regions"], "note": "False in general of the code: refuted with anonymous rows, with history, and with regions. Proved for machines with one region and without history and anonymous rows; with C64 an exact description of the locations visited if no row is hidden."},
  {"property": "C66", "status": "proved", "theorems": ["Hsm.C66_declared", "Hsm.C66_elsewhere"], "note": "C66_declared: the last sentence is the parameter sem.QuietGuards of Declared. C66_elsewhere shows that this condition is needed: a guard that sends an event and says no leaves the loop asking the guards of a state the machine is no longer in."},
  {"property": "C67", "status": "proved", "theorems": ["Hsm.C67_order", "Hsm.C67_order_back", "Hsm.C67_readings", "Hsm.C67_initials"], "note": "Any number of exchanges, both directions, all outcomes. C67_readings and C67_initials show that the provisos are needed."},
  {"property": "C68", "status": "proved", "theorems": ["Hsm.C68_size", "Hsm.C68_bound", "Hsm.C68_exact", "Hsm.C68_refuted"], "note": "C68_refuted: no bound independent of the number of set_dependency calls exists."},
  {"property": "C69", "status": "partial", "theorems": ["Hsm.C69_tail_partial", "Hsm.C69_back_partial", "Hsm.C69_partial", "Hsm.C69_refuted_middle", "Hsm.C69_refuted_regions", "Hsm.C69_refuted_anonymous", "Hsm.C69_refuted_deferred"], "note": "Proved for one region, no anonymous rows, no deferred events, sending callbacks last in their row. False without any one of these; the refuted theorems show each."},
  {"property": "C70", "status": "partial", "theorems": ["Hsm.C70_remove_partial", "Hsm.C70_add_partial", "Hsm.C70_partial", "Hsm.C70_refuted"], "note": "Proved for rows that lead into no composite whose rows apply, whose states are mentioned before or are not in use, and whose removal leaves the number of slots and the kinds of rows (anonymous, history, deferring) as they are. False for rows into a composite in use (C70_refuted)."},
  {"property": "C71", "status": "proved", "theorems": ["Hsm.C71_behaviour", "Hsm.C71_answer", "Hsm.C71_total", "Hsm.C71_flat"], "note": "Machines with one region and without anonymous rows, deferral and history; guards with fixed answers (payload and world may still change)."},
  {"property": "C72", "status": "proved", "theorems": ["Hsm.Programs.C72_automaton", "Hsm.Programs.C72_turnstile", "Hsm.Programs.C72_turnstile_error", "Hsm.Programs.C72_cdplayer", "Hsm.Programs.C72_simple", "Hsm.Programs.C72_ring", "Hsm.Programs.C72_ring_stuck", "Hsm.Programs.C72_safe", "Hsm.Programs.C72_unsafe"], "note": "The machines are transcribed from the programs; what the programs' callbacks print is not modelled."},
  {"property": "C73", "status": "proved", "theorems": ["Hsm.C73_event", "Hsm.C73_history", "Hsm.C73_vending"], "note": "Plain machines (one region, no anonymous rows, deferral, history), arbitrary callbacks incl. throwing and undefined ones; state objects exist."},
  {"property": "C74", "status": "partial", "theorems": ["Hsm.C74_candidates", "Hsm.C74_once", "Hsm.C74_event", "Hsm.C74_partial", "Hsm.C74_runs", "Hsm.C74_entered", "Hsm.C74_steady", "Hsm.C74_behave", "Hsm.C74_several", "Hsm.C74_several_answer", "Hsm.C74_refuted_twice", "Hsm.C74_refuted_outer", "Hsm.C74_refuted_handler"], "note": "Proved for composites with one entrance and events that have candidates wherever the machine is inside (or equal handlers): equal runs for arbitrary callbacks. With several entrances proved for guards that always answer the same (same answers and locations, guards asked more often). False for several entrances and guards that change their answer during one event (C74_refuted_twice), if an outer row takes the event (C74_refuted_outer), and if handlers differ (C74_refuted_handler)."},
  {"property": "C75", "status": "proved", "theorems": ["Hsm.Machine.C75_rows", "Hsm.Machine.C75_entrances", "Hsm.Machine.C75_waysIn_pos", "Hsm.Machine.C75_tries", "Hsm.Machine.C75_internal", "Hsm.C75_guard", "Hsm.C75_guard_throw", "Hsm.C75_asked", "Hsm.C75_asked_throw", "Hsm.C75_asked_internal", "Hsm.C75_asked_written", "Hsm.C75_exponential"], "note": "Counts are paths in the nesting graph, not lengths of the model's lists; runs are those of regionStep and tryAnon at any reachable moment."},
  {"property": "C76", "status": "proved", "theorems": ["Hsm.Renamed.accepts", "Hsm.Renamed.comb", "Hsm.Renamed.C76_construct", "Hsm.Renamed.C76_event", "Hsm.Renamed.C76_step", "Hsm.Renamed.C76_runs", "Hsm.Renamed.C76_runAll", "Hsm.Renamed.C76_observe", "Hsm.C76_refuted_merged"], "note": "for all machines, also rejected ones; C76_refuted_merged shows that callbacks must stay distinct"},
  {"property": "C77", "status": "proved", "theorems": ["Hsm.C77_construct", "Hsm.C77_event", "Hsm.C77_step", "Hsm.C77_history", "Hsm.C77_reach", "Hsm.C77_undefined", "Hsm.C77_fuel"], "note": "The interpreter is a specification written without the tables and indices of the model; it is executable."},
  {"property": "C78", "status": "proved", "theorems": ["Hsm.C78_switch", "Hsm.C78_otherwise", "Hsm.C78_lazy", "Hsm.C78_for_each", "Hsm.C78_for_each_idx", "Hsm.C78_index_map", "Hsm.C78_actions", "Hsm.C78_events"], "note": "Lists shorter than 2^64."},
  {"property": "C79", "status": "proved", "theorems": ["Hsm.C79", "Hsm.C79_told", "Hsm.C79_smooth", "Hsm.C79_verdicts_needed"], "note": "Callbacks that do not call the machine (the model of RunTo). Exceptions of the user are compared up to their value."},
  {"property": "C80", "status": "proved", "theorems": ["Hsm.C80_places", "Hsm.C80_undefined", "Hsm.C80_closed", "Hsm.C80_safe", "Hsm.C80_defined", "Hsm.C80_found", "Hsm.C80_visited", "Hsm.C80_listed", "Hsm.C80_exact", "Hsm.C80_defer_needed", "Hsm.C80_set_needed"], "note": "Soundness for all machines; exactness if nothing is deferred or there is one region. The list of arguments for set is a parameter; with the empty list, clients that do not call set. C80_defer_needed and C80_set_needed show that the conditions cannot be dropped."},
  {"property": "C81", "status": "proved", "theorems": ["Hsm.C81_same", "Hsm.C81_life", "Hsm.C81_gone", "Hsm.C81_asked", "Hsm.C81_left", "Hsm.C81_swapped", "Hsm.C81_silent", "Hsm.C81_refilled", "Hsm.Ex.C81_use_after_move"], "note": "C81_refilled is for machines without orthogonal regions and anonymous rows. That moved-from deques are empty is taken from the usual implementations of the standard library."},
  {"property": "C82", "status": "proved", "theorems": ["Hsm.C82_construct", "Hsm.C82_event", "Hsm.C82_step", "Hsm.C82_history", "Hsm.C82_undefined", "Hsm.C82_reach"], "note": "For all machines the amalgamated header accepts (RegularG) and all callbacks. `fuel` bounds the anonymous loop; running out stands for a call that does not return."},
  {"property": "C83", "status": "proved", "theorems": ["Hsm.C83_event", "Hsm.C83_step", "Hsm.C83_history", "Hsm.C83_undefined", "Hsm.C83_reach", "Hsm.Machine.C83_conservative"], "note": "For regular machines and callbacks whose calls pass the static assertions. `fuel` bounds the anonymous loop and `n` the nesting; running out stands for a call that does not return."},
  {"property": "C84", "status": "proved", "theorems": ["Hsm.C84_returns", "Hsm.C84_either", "Hsm.C84_hangs", "Hsm.C84_exact", "Hsm.C84_uniform"], "note": "Soundness for all machines, exactness if nothing is deferred or there is one region, for any list of arguments for set (as C80). Running out of every amount of fuel stands for a call that does not return (C77_fuel)."},
  {"property": "C85", "status": "proved", "theorems": ["Hsm.C85_same", "Hsm.C85_same_states"], "note": "The check is sound, not complete: it compares candidates one by one. set_state is left out (the two machines have different states)."},
  {"property": "C86", "status": "proved", "theorems": ["Hsm.C86_keeps", "Hsm.C86_prefix", "Hsm.C86_broken", "Hsm.C86_exact", "Hsm.C86_decides", "Hsm.C86_found", "Hsm.Programs.C86_turnstile"], "note": "Clients send events only; set_state and set_dependency are left out of Observed. Payloads, dependencies and the regions' states seen by re-entrant callbacks are erased from the signs."},
  {"property": "C87", "status": "proved", "theorems": ["Hsm.C87_shadow", "Hsm.C87_refines", "Hsm.C87_nowhere", "Hsm.C87_apart", "Hsm.C87_decides", "Hsm.C87_found", "Hsm.C87_either"], "note": "Signs erase payloads, dependencies and the regions' states seen by re-entrant callbacks; clients send events only, including none where the machine has anonymous rows. The client of the second machine may have other callbacks than that of the first."},
  {"property": "C88", "status": "proved", "theorems": ["Hsm.C88_determines", "Hsm.C88_recovers", "Hsm.C88_stuck", "Hsm.C88_decides", "Hsm.C88_found", "Hsm.Programs.C88_turnstile", "Hsm.Programs.C88_cdplayer"], "note": "The client that goes on may have other callbacks than the one before, as long as what it observes begins the same. Clients send events only (no set)."},
  {"property": "C89", "status": "proved", "theorems": ["Hsm.C89_replaces", "Hsm.C89_interchangeable"], "note": "Says nothing about a call of the first machine that hangs or is undefined. The state objects of the second machine must exist when calls need them (hobj). Clients send events only (no set)."},
  {"property": "C90", "status": "proved", "theorems": ["Hsm.C90_apart", "Hsm.C90_calls", "Hsm.C90_answer", "Hsm.C90_total"], "note": "Guards with fixed answers, callbacks that do not throw, clients that only send events. That the conditions on deferral and on equal numbers of regions are needed is shown by examples; the need of the others is not."},
  {"property": "C91", "status": "proved", "theorems": ["Hsm.C91_same", "Hsm.C91_covers"], "note": "The check errs on the safe side: it may refuse a machine for which no client sees a difference. Machines that defer events are always refused, as the headers differ on them (C61_refuted_deferral)."},
  {"property": "C92", "status": "partial", "theorems": ["Hsm.C92_output", "Hsm.C92_rows", "Hsm.C92_partial", "Hsm.C92_refuted_history", "Hsm.C92_refuted_composite", "Hsm.C92_refuted_pointer", "Hsm.C92_refuted_exit"], "note": "False in general of the code: a history row prints the first initial state of the composite although the remembered one is entered, a row on a composite prints the composite as its source, a destination that is not default constructible is printed as a pointer, and if an exit action throws the move is made and not printed. C92_rows says for all machines without throwing exit actions what the lines do say; C92_partial is the claim for machines without these four."},
  {"property": "C93", "status": "proved", "theorems": ["Hsm.C93_ledger", "Hsm.C93_calls", "Hsm.C93_still"], "note": "Calls are compared without the positions the model records with them; the ledger gives the positions itself, by name."},
  {"property": "C94", "status": "proved", "theorems": ["Hsm.C94_locations", "Hsm.C94_callbacks", "Hsm.C94_closed"], "note": "Reentrant counterpart of C64, also with set. Locations are over-approximated: C94 does not say that each location of ReachesR is reached."},
  {"property": "C95", "status": "proved", "theorems": ["Hsm.C95_moves", "Hsm.C95_actions"], "note": "That the row applies where the region is when it fires is C58 (false if guards use the machine)."},
  {"property": "C96", "status": "proved", "theorems": ["Hsm.C96_ends", "Hsm.C96_bounds", "Hsm.Ex.C96_tangle", "Hsm.Ex.C96_refuted"], "note": "Termination for machines that do not both defer events and have regions; for the others a counterexample."},
  {"property": "C97", "status": "proved", "theorems": ["Hsm.C97_event", "Hsm.C97_step", "Hsm.C97_history", "Hsm.C97_undefined", "Hsm.C97_reach", "Hsm.C97_conservative"], "note": "Step for step and for whole histories."},
  {"property": "C98", "status": "partial", "theorems": ["Hsm.C98_step", "Hsm.C98_runs_partial", "Hsm.C98_refuted"], "note": "Missing: machines that defer (false, C98_refuted) and internal rows that are not plain (false, C61)."},
  {"property": "C99", "status": "partial", "theorems": ["Hsm.C99_construct", "Hsm.C99_partial", "Hsm.C99_only_iterators", "Hsm.C99_refuted"], "note": "Missing: guards that (directly or through nested calls) reach set_dependency; false for them (C99_refuted)."}
]}
