import Verif.Machines

/-!
# The unit tests of the compile-time part, replayed on the model

Tests, not proofs: they check that the model of the compile-time functions computes what
the repository's tests (`test/unit`) expect of the code.
-/

namespace Hsm.UnitTests
open Hsm.Ex

/-- `hsm::transition(source, event, …, target)` with things that do not matter left out. -/
def tr (src : StTy) (e : Nat) (dst : StTy) : Row := row src (ev e) none none dst

/-! ## collect_states_tests.cpp -/

/-- S1 = 1, S2 = 2, S = 0. -/
def pair : Machine :=
  .ofList [{ table := some [tr (.st 1) 0 (.st 1), tr (.st 2) 0 (.st 2)] }] [1]

-- should_collect_child_states_typeids, should_collect_child_states
example : pair.childIds 0 = [.st 1, .st 2] ∧ pair.childStates 0 = [.st 1, .st 2] := by decide
-- should_collect_child_state_typeids_recursive_on_top_level
example : pair.subStateIds = [.st 1, .st 2] := by decide

-- should_resolve_initial_state_on_collect_child_state_typeids
example : (Machine.ofList [{ table := some [tr (ini 1) 0 (.st 1)] }] [1]).childIds 0 = [.st 1] := by
  decide

-- should_collect_empty_child_state_recursive, should_collect_at_least_parent_state
example : (Machine.ofList [{ table := some [] }] [1]).subStateIds = [] ∧
    (Machine.ofList [{ table := some [] }] [1]).stateIds = [.st 0] := by decide

/-- S = 0, S1 = 1, S2 = 2, P = 3. -/
def nested : Machine :=
  .ofList [{ table := some [tr (.st 1) 0 (.st 3)] }, { }, { }, { table := some [tr (.st 2) 0 (.st 2)] }] [1]

-- should_collect_child_state_typeids_recursive, should_collect_state_typeids_recursive
example : nested.subStateIds = [.st 1, .st 3, .st 2] ∧
    nested.stateIds = [.st 1, .st 3, .st 2, .st 0] := by decide

/-- MainState = 0, S1..S4 = 1..4, SubState = 5, HistorySubState = 6; written with
`hsm::transition`, so that the pseudo states keep their own types. -/
def main : Machine := .ofList
  [ { table := some
        [ tr (.ps true (.initial 1)) 1 (.st 2), tr (.st 2) 1 (.st 5),
          tr (.st 2) 1 (.ps true (.history 6)), tr (.ps true (.initial 3)) 1 (.st 4) ] },
    { }, { }, { }, { },
    { table := some [tr (.ps true (.initial 1)) 1 (.st 2)] },
    { table := some [tr (.ps true (.initial 1)) 1 (.st 2)] } ] [1]

-- should_collect_parent_state_typeids
example : main.parents = [0, 5, 6] := by decide
-- should_collect_parent_state_and_state_typeids
example : main.statePairs =
    [ (0, .st 0), (0, .st 1), (0, .st 2), (0, .st 5), (5, .st 1), (5, .st 2),
      (0, .ps true (.history 6)), (6, .st 1), (6, .st 2), (0, .st 3), (0, .st 4) ] := by decide

/-! ## collect_events_tests.cpp -/

/-- S = 0, S1 = 1, P = 2. -/
def events : Machine := .ofList
  [ { table := some [tr (.st 1) 1 (.st 2)], itable := some [⟨ev 3, none, none⟩] }, { },
    { table := some [tr (.st 1) 2 (.st 1)], itable := some [⟨ev 4, none, none⟩] } ] [1]

example : events.eventIds = [ev 1, ev 2, ev 3, ev 4] := by decide

/-! ## collect_initial_states_tests.cpp -/

/-- Root1 = 0, Initial1 = 1, S2 = 2, S3 = 3, SubState1 = 4. -/
def root1 : Machine := .ofList
  [ { table := some
        [ row (ini 1) .none none none (.st 1), row (.st 1) .none none none (.ps true (.history 4)),
          row (ini 2) .none none none (.st 2) ] },
    { }, { }, { }, { table := some [row (ini 3) .none none none (.st 1)] } ] [1]

-- should_collect_initial_states, should_make_initial_state_map, should_fill_initial_state_table,
-- should_count_max_initial_states
example : root1.initials 0 = [1, 2] ∧ root1.maxInit = 2 ∧ root1.parents = [0, 4] ∧
    root1.initialTable = [[root1.comb 0 (.st 1), root1.comb 0 (.st 2)], [root1.comb 4 (.st 3)]] := by
  decide
-- should_test_if_initial_states_have_transition_table
example : root1.accepts = true := by decide

/-- Root2 = 0, Initial2 = 1, Initial3 = 2, S1 = 3, S2 = 4, S3 = 5, Initial1 = 6. -/
def root2 : Machine := .ofList
  [ { table := some [row (ini 1) .none none none (.st 3), row (.st 2) .none none none (.st 4)] },
    { table := some [row (ini 5) .none none none (.st 6)], itable := some [⟨ev 1, none, none⟩] } ] [1]

example : root2.isComposite 1 = true ∧ root2.isComposite 2 = false ∧ root2.accepts = false := by
  decide

/-! ## flatten_internal_transition_table_tests.cpp -/

/-- Y = 0, PlainState = 1. -/
def y : Machine :=
  .ofList [{ table := some [tr (.st 1) 0 (.st 1)], itable := some [⟨ev 0, none, none⟩] }] [1]

-- should_flatten_root_internal_transition_table
example : y.iflat.map (fun t => (t.parent, t.source, t.target)) = [(0, .st 1, .st 1)] := by decide

/-- X = 0, InternalOnly = 1. -/
def x : Machine :=
  .ofList [{ table := some [tr (.st 1) 0 (.st 1)] }, { itable := some [⟨ev 0, none, none⟩] }] [1]

-- should_flatten_substate_internal_transition_table
example : x.iflat.map (fun t => (t.parent, t.source, t.target)) = [(0, .st 1, .st 1)] := by decide

/-- Z = 0, InternalOnly = 1. -/
def z : Machine := .ofList
  [ { table := some [tr (.st 1) 0 (.st 1)], itable := some [⟨ev 0, none, none⟩] },
    { itable := some [⟨ev 0, none, none⟩] } ] [1]

-- should_flatten_root_and_substate_internal_transition_table
example : z.iflat.map (fun t => (t.parent, t.source, t.target)) = [(0, .st 1, .st 1)] := by decide

/-- P = 0, InternalOnly = 1, Z = 2. -/
def p : Machine := .ofList
  [ { table := some [tr (.st 1) 0 (.st 2)], itable := some [⟨ev 0, none, none⟩] },
    { itable := some [⟨ev 0, none, none⟩] },
    { table := some [tr (.st 1) 0 (.st 1)], itable := some [⟨ev 0, none, none⟩] } ] [1]

-- should_flaten_internal_transition_table
example : p.iflat.length = 3 := by decide

/-! ## flatten_transition_table_tests.cpp -/

/-- S = 0, T = 1, P = 2, R = 3. -/
def flattened : Machine := .ofList
  [ { table := some [tr (.st 1) 1 (.st 2), tr (.st 1) 2 (.ps true (.history 3))] }, { },
    { table := some [tr (.st 1) 1 (.st 1)] }, { table := some [tr (.st 1) 1 (.st 1)] } ] [1]

example : flattened.flat.length = 4 := by decide

/-! ## stateidx_tests.cpp (machine `nested`) -/

example : nested.stateIdx (.st 0) = 3 ∧ nested.stateIdx (.st 1) = 0 ∧ nested.stateIdx (.st 3) = 1 ∧
    nested.stateIdx (.st 2) = 2 := by decide
example : nested.parentIdx 0 = 0 ∧ nested.parentIdx 3 = 1 := by decide
example : nested.comb 0 (.st 1) = 0 ∧ nested.comb 3 (.st 2) = 6 := by decide
example : nested.nStates = 4 ∧ nested.nParents = 2 ∧
    nested.parentIdx 0 * nested.nStates + nested.stateIdx (.st 1) = nested.comb 0 (.st 1) ∧
    nested.parentIdx 3 * nested.nStates + nested.stateIdx (.st 2) = nested.comb 3 (.st 2) := by decide
example : nested.comb 0 (.st 1) / nested.nStates = 0 ∧ nested.comb 3 (.st 2) / nested.nStates = 1 ∧
    nested.comb 0 (.st 1) % nested.nStates = 0 ∧ nested.comb 3 (.st 2) % nested.nStates = 2 := by decide

/-! ## fill_dispatch_table_tests.cpp -/

/-- MainState = 0, S1 = 1, S2 = 2. -/
def filled : Machine :=
  .ofList [{ table := some [tr (.ps true (.initial 1)) 1 (.st 2)] }] [1]

example : ((filled.fillWith 7 filled.flat (fun _ _ => [])).toOption.map fun T =>
    (List.range filled.size).map fun c => (T (ev 1) c).length) = some [1, 0, 0] := by decide

/-! ## index_map_tests.cpp, remove_duplicates_tests.cpp ('c' = 0, 42 = 1) -/

example : indexOf [10, 20] 10 = 0 ∧ indexOf [10, 20] 20 = 1 := by decide
example : uniq [0, 1, 1, 0, 1, 0, 0] = [0, 1] := by decide

/-! ## transition_table_traits_tests.cpp, traits_tests.cpp -/

/-- MainState = 0, S1..S3 = 1..3, PS1 = 4, PS2 = 5. -/
def traits : Machine := .ofList
  [ { table := some [tr (ini 1) 1 (.st 2), row (.st 2) .none none none (.st 3), tr (ini 4) 1 (.st 5)] } ] [1]

example : traits.hasAnon = true ∧
    (Machine.ofList [{ table := some [tr (ini 1) 1 (.st 2)] }] [1]).hasAnon = false := by decide

-- should_recognize_substate_initial_state_entry_action (SubState = 1, S1 = 2)
example : ((Machine.ofList [{ }, { table := some [tr (.ps true (.initial 2)) 1 (.st 2)] },
    { onEntry := some 9 }] [1]).initEntryOf (.st 1)).isSome = true := by decide
-- should_recognize_history_state
example : Machine.isHistory (.ps false (.history 1)) = true := by decide

end Hsm.UnitTests
