import Verif.Gen
import Verif.Machines

/-!
# The integration tests of the repository, replayed on the model

These are tests, not proofs about all machines: they check that the model computes what the
repository's own tests (`test/integration`) expect of the code.  Each machine is
transcribed from the file named; state 0 is `MainState`.
-/

namespace Hsm.RepoTests
open Hsm.Ex

/-- One line of a test. -/
inductive Line
  /-- `sm.process_event(e)` -/
  | ev (n : Nat)
  /-- `ASSERT_EQ(sm.process_event(e), b)` -/
  | ret (n : Nat) (b : Bool)
  /-- `ASSERT_EQ(sm.is(state<st>), b)` -/
  | is (st : Name) (b : Bool)
  /-- `ASSERT_EQ(sm.is(r, state<p>, state<st>), b)` -/
  | isIn (r : Nat) (p st : Name) (b : Bool)
  /-- `ASSERT_EQ(sm.parent_is(state<p>), b)` -/
  | parent (p : Name) (b : Bool)
  /-- `ASSERT_THROW(sm.is(r, state<p>, state<st>), std::out_of_range)` -/
  | isThrows (r : Nat) (p st : Name)
  /-- `sm.set(r, state<p>, state<st>)` -/
  | set (r : Nat) (p st : Name)
  /-- `ASSERT_THROW(sm.set(r, state<p>, state<st>), std::out_of_range)` -/
  | setThrows (r : Nat) (p st : Name)
  /-- `sm.set_dependency(d)` -/
  | dep (d : Dep)
  /-- the callbacks called so far -/
  | called (l : List Cb)
  /-- a callback that was not called -/
  | notCalled (c : Cb)

/-- Guards numbered below 100 are false; actions just run. -/
def user : Sem Nat (List Nat) := Ex.sem fun g => decide (100 ≤ g)

/-- Runs a test; `false` if an assertion fails or something undefined happens. -/
def passes (M : Machine) : List Line → SM Nat (List Nat) → Bool
  | [], _ => true
  | l :: ls, s =>
    match l with
    | .ev n =>
      match processEvent M user 10 (.user n) 0 s with
      | .ok _ s' => passes M ls s'
      | _ => false
    | .ret n b =>
      match processEvent M user 10 (.user n) 0 s with
      | .ok b' s' => b == b' && passes M ls s'
      | _ => false
    | .is st b =>
      match isState M (.st st) s with
      | .ok b' s' => b == b' && passes M ls s'
      | _ => false
    | .isIn r p st b =>
      match isRegion M r p (.st st) s with
      | .ok b' s' => b == b' && passes M ls s'
      | _ => false
    | .parent p b =>
      match parentIs M p s with
      | .ok b' s' => b == b' && passes M ls s'
      | _ => false
    | .isThrows r p st =>
      match isRegion M r p (.st st) s with
      | .throw .outOfRange s' => passes M ls s'
      | _ => false
    | .set r p st =>
      match setOp M r p (.st st) s with
      | .ok _ s' => passes M ls s'
      | _ => false
    | .setThrows r p st =>
      match setOp M r p (.st st) s with
      | .throw .outOfRange s' => passes M ls s'
      | _ => false
    | .dep d =>
      match setDependency M d s with
      | .ok _ s' => passes M ls s'
      | _ => false
    | .called l => s.world == l && passes M ls s
    | .notCalled c => !s.world.contains c && passes M ls s

/-- A test case on a fresh machine. -/
def case (M : Machine) (ls : List Line) : Bool :=
  match construct M 7 [] with
  | .ok s => passes M ls s
  | .error _ => false

/-! ## basic_transitions.cpp (states: S1..S3 = 1..3, SubState = 4, SubSubState = 5) -/

def basic : Machine := .ofList
  [ { table := some
        [ row (ini 1) (ev 1) none (some 1) (.st 2), row (.st 1) (ev 2) none (some 1) (.st 3),
          row (.st 1) (ev 4) none (some 1) (.st 4), row (.st 1) (ev 5) none (some 1) (.st 3),
          row (.st 1) (ev 6) none (some 1) (.st 1), row (.st 2) (ev 1) none (some 1) (.st 1),
          row (.st 2) (ev 2) none (some 1) (.st 1), row (.st 2) (ev 3) none (some 1) (.st 3),
          row (.st 4) (ev 2) none (some 1) (.st 1), row (.st 4) (ev 4) none (some 1) (.st 4) ]
      handler := some 50 },
    { }, { }, { },
    { table := some
        [ row (ini 1) (ev 1) none (some 1) (.st 2), row (.st 1) (ev 5) none (some 1) (.st 3),
          row (.st 2) (ev 1) none (some 1) (.st 5), row (.st 5) (ev 2) none (some 1) (.st 1) ] },
    { table := some [row (ini 1) (ev 1) none (some 1) (.st 2)] } ] [2, 0, 0, 0, 1]

-- should_start_in_initial_state, should_start_in_root_state
example : case basic [.is 1 true, .parent 0 true] = true := by decide +kernel
-- should_process_event
example : case basic [.is 1 true, .ev 1, .is 2 true] = true := by decide +kernel
-- should_transit_into_SubState
example : case basic [.ev 4, .isIn 0 4 1 true] = true := by decide +kernel
-- should_transit_into_SubSubState
example : case basic [.ev 4, .ev 1, .ev 1, .isIn 0 5 1 true] = true := by decide +kernel
-- should_transit_in_SubState_with_unique_event
example : case basic [.ev 4, .isIn 0 4 1 true, .ev 5, .isIn 0 4 1 false, .isIn 0 4 3 true] = true := by
  decide +kernel
-- should_exit_substate_on_event_in_parentstate
example : case basic [.ev 4, .isIn 0 4 1 true, .ev 2, .isIn 0 0 1 true] = true := by decide +kernel
-- should_exit_subsubstate_on_event_in_parentstate
example : case basic [.ev 4, .ev 1, .ev 1, .isIn 0 5 1 true, .ev 2, .isIn 0 4 1 true] = true := by
  decide +kernel
-- should_reentry_substate_on_initial_state
example : case basic [.ev 4, .isIn 0 4 1 true, .ev 1, .isIn 0 4 2 true, .ev 4, .parent 4 true,
    .isIn 0 4 1 true] = true := by decide +kernel
-- should_self_transit
example : case basic [.isIn 0 0 1 true, .ev 6, .isIn 0 0 1 true, .ev 6, .isIn 0 0 1 true] = true := by
  decide +kernel
-- should_fail_when_access_invalid_region
example : case basic [.isThrows 15 0 1] = true := by decide +kernel

/-! ## guards_actions.cpp (S1..S3 = 1..3, SubState = 4; fail = 10, success = 110) -/

def guards : Machine := .ofList
  [ { table := some
        [ row (ini 1) (ev 1) none (some 2) (.st 1), row (.st 1) (ev 2) none none (.st 4),
          row (.st 1) (ev 3) (some 10) none (.st 2), row (.st 1) (ev 4) (some 110) none (.st 2),
          row (.st 1) (ev 9) (some 10) none (.st 2), row (.st 1) (ev 9) (some 110) none (.st 2),
          row (.st 1) (ev 10) none none (.st 3), row (.st 1) (ev 11) none (some 3) (.st 2),
          row (.st 3) .none (some 10) none (.st 1),
          row (.st 1) (ev 5) none (some 4) (.st 2), row (.st 1) (ev 6) none (some 5) (.st 2),
          row (.st 1) (ev 7) none (some 6) (.st 2), row (.st 1) (ev 8) none (some 7) (.st 2) ] },
    { }, { }, { },
    { table := some [row (ini 1) (ev 1) none (some 2) (.st 1)] } ] [1]

-- should_call_action, should_call_substate_action
example : case guards [.ev 1, .called [2]] = true := by decide +kernel
example : case guards [.ev 2, .ev 1, .called [2]] = true := by decide +kernel
-- should_block_transition_guard, should_not_block_transition_by_guard
example : case guards [.is 1 true, .ev 3, .is 1 true] = true := by decide +kernel
example : case guards [.is 1 true, .ev 4, .is 2 true] = true := by decide +kernel
-- should_use_functor, …_free_function, …_lambda_function, …_member_function
example : case guards [.ev 5, .called [4]] = true := by decide +kernel
example : case guards [.ev 6, .called [5]] = true := by decide +kernel
example : case guards [.ev 7, .called [6]] = true := by decide +kernel
example : case guards [.ev 8, .called [7]] = true := by decide +kernel
-- should_recognize_same_transition_with_different_guards
example : case guards [.ev 9, .is 2 true] = true := by decide +kernel
-- should_guard_anon_transition
example : case guards [.ev 10, .is 3 true] = true := by decide +kernel
-- should_access_source_and_target_member
example : case guards [.ev 11, .is 2 true, .called [3]] = true := by decide +kernel

/-! ## entry_exit_actions.cpp (S1 = 1, S2 = 2, Exit = 3, SubState1..3 = 4..6) -/

def entryExit : Machine := .ofList
  [ { table := some
        [ row (ini 1) (ev 1) none none (.st 2), row (.st 2) (ev 1) none none (.st 1),
          row (.st 1) (ev 2) none none (.st 4), row (.st 1) (ev 3) none none (.st 5),
          row (.st 1) (ev 4) none (some 1) (.st 6), row (.st 4) (ev 2) none none (.st 1),
          row (.ps false (.exit 6 3)) .none none (some 1) (.st 1) ] },
    { }, { onEntry := some 20, onExit := some 21 }, { },
    { table := some [row (ini 1) (ev 1) none none (.st 1)], onEntry := some 40, onExit := some 41 },
    { table := some [row (ini 2) (ev 1) none none (.st 2)] },
    { table := some [row (ini 1) (ev 4) none (some 1) (.st 3)], onExit := some 61 } ] [1]

-- should_call_entry_and_exit_action
example : case entryExit [.is 1 true, .ev 1, .is 2 true, .called [20], .ev 1, .is 1 true,
    .called [20, 21]] = true := by decide +kernel
-- should_call_entry_and_exit_action_of_substate
example : case entryExit [.is 1 true, .ev 2, .isIn 0 4 1 true, .called [40], .ev 2, .is 1 true,
    .called [40, 41]] = true := by decide +kernel
-- should_call_entry_action_of_substate_initial_state
example : case entryExit [.ev 3, .isIn 0 5 2 true, .called [20]] = true := by decide +kernel
-- should_call_exit_action_on_pseudo_exit
example : case entryExit [.ev 4, .isIn 0 6 1 true, .ev 4, .is 1 true, .called [1, 1, 61, 1]] = true := by
  decide +kernel

/-! ## anonymous_transition.cpp (S1..S9 = 1..9, PS1 = 10, PS2 = 11) -/

def anon : Machine := .ofList
  [ { table := some
        [ row (ini 1) (ev 1) none none (.st 2), row (.st 1) (ev 2) none none (.st 4),
          row (.st 1) (ev 3) none none (.st 6), row (.st 1) (ev 4) none none (.st 8),
          row (.st 2) .none none none (.st 3), row (.st 4) .none none (some 1) (.st 5),
          row (.st 6) .none (some 110) none (.st 7), row (.st 8) .none (some 110) (some 1) (.st 9),
          row (ini 10) (ev 5) none none (.st 11) ] } ] [1]

example : case anon [.ev 1, .is 3 true] = true := by decide +kernel
example : case anon [.ev 2, .is 5 true] = true := by decide +kernel
example : case anon [.ev 3, .is 7 true] = true := by decide +kernel
example : case anon [.ev 4, .is 9 true] = true := by decide +kernel

/-! ## defer_events.cpp (S1 = 1, S2 = 2, PS1 = 3, PS2 = 4; defered1 = 2, defered2 = 3) -/

def defer : Machine := .ofList
  [ { table := some
        [ row (ini 1) (ev 1) none (some 1) (.st 2), row (.st 1) (ev 3) none (some 1) (.st 2),
          row (.st 2) (ev 2) none (some 1) (.st 1), row (ini 3) (ev 4) none (some 1) (.st 4) ]
      handler := some 50 },
    { defer := some [ev 2, ev 3] } ] [1]

-- should_defer_event
example : case defer [.is 1 true, .ev 2, .is 1 true, .ev 1, .is 1 true] = true := by decide +kernel
-- should_defer_event_with_parameters
example : case defer [.ev 3] = true := by decide +kernel

/-! ## direct_transition.cpp (S1..S4 = 1..4, SubState = 5, SubState2 = 6) -/

def direct : Machine := .ofList
  [ { table := some
        [ row (ini 1) (ev 1) none none (.st 5), row (.st 1) (ev 2) none none (.st 6),
          row (.st 1) (ev 3) none none (.ps true (.direct 5 1)),
          row (.ps false (.direct 5 1)) (ev 2) none none (.ps true (.direct 6 1)),
          row (.ps false (.direct 5 2)) .none none none (.ps true (.direct 6 2)),
          row (.ps false (.direct 5 3)) (ev 2) (some 10) none (.ps true (.direct 6 3)),
          row (.ps false (.direct 5 4)) (ev 2) none (some 1) (.ps true (.direct 6 4)),
          row (.ps false (.direct 5 4)) (ev 2) (some 10) (some 1) (.ps true (.direct 6 4)) ] },
    { }, { }, { }, { },
    { table := some
        [ row (ini 1) (ev 1) none none (.st 1), row (.st 1) (ev 3) none none (.st 2),
          row (.st 1) (ev 4) none none (.st 3), row (.st 1) (ev 5) none none (.st 4) ] },
    { table := some [row (ini 1) (ev 1) none none (.st 1)] } ] [1]

example : case direct [.ev 3, .isIn 0 5 1 true] = true := by decide +kernel
example : case direct [.ev 1, .isIn 0 5 1 true, .ev 2, .isIn 0 6 1 true] = true := by decide +kernel
example : case direct [.ev 1, .isIn 0 5 1 true, .ev 3, .isIn 0 6 2 true] = true := by decide +kernel
example : case direct [.ev 1, .ev 4, .isIn 0 5 3 true, .ev 2, .isIn 0 5 3 true] = true := by
  decide +kernel
example : case direct [.ev 1, .ev 5, .isIn 0 5 4 true, .ev 2, .isIn 0 6 4 true] = true := by
  decide +kernel

/-! ## entry_exit_pseudo_states.cpp (S1..S5 = 1..5, SubState = 6) -/

def pseudo : Machine := .ofList
  [ { table := some
        [ row (ini 1) (ev 1) none none (.ps true (.entry 6 3)), row (.st 1) (ev 2) none none (.st 6),
          row (.st 1) (ev 3) (some 10) none (.ps true (.entry 6 3)),
          row (.st 1) (ev 4) (some 10) (some 1) (.ps true (.entry 6 3)),
          row (.st 1) (ev 5) none (some 1) (.ps true (.entry 6 3)),
          row (.st 1) (ev 6) none none (.st 2),
          row (.st 2) .none none none (.ps true (.entry 6 3)),
          row (.ps false (.exit 6 4)) (ev 1) none none (.st 1),
          row (.ps false (.exit 6 4)) (ev 2) (some 110) none (.st 1),
          row (.ps false (.exit 6 4)) (ev 3) (some 110) (some 1) (.st 1),
          row (.ps false (.exit 6 4)) (ev 4) none (some 1) (.st 1),
          row (.ps false (.exit 6 5)) .none none none (.st 1) ] },
    { }, { }, { }, { }, { },
    { table := some
        [ row (ini 1) (ev 1) none none (.st 2), row (.st 1) (ev 2) none none (.st 3),
          row (.st 1) (ev 4) none none (.st 4), row (.st 1) (ev 5) none none (.st 5) ] } ] [1]

example : case pseudo [.ev 1, .isIn 0 6 3 true] = true := by decide +kernel
example : case pseudo [.ev 6, .isIn 0 6 3 true] = true := by decide +kernel
example : case pseudo [.ev 3, .isIn 0 0 1 true] = true := by decide +kernel
example : case pseudo [.ev 4, .isIn 0 0 1 true] = true := by decide +kernel
example : case pseudo [.ev 5, .isIn 0 6 3 true] = true := by decide +kernel
example : case pseudo [.ev 2, .isIn 0 6 1 true, .ev 4, .ev 1, .is 1 true] = true := by decide +kernel
example : case pseudo [.ev 2, .isIn 0 6 1 true, .ev 4, .ev 4, .is 1 true] = true := by decide +kernel
example : case pseudo [.ev 2, .isIn 0 6 1 true, .ev 4, .ev 2, .is 1 true] = true := by decide +kernel
example : case pseudo [.ev 2, .isIn 0 6 1 true, .ev 4, .ev 3, .is 1 true] = true := by decide +kernel
example : case pseudo [.ev 2, .isIn 0 6 1 true, .ev 5, .is 1 true] = true := by decide +kernel

/-! ## exit_pseudo_states_with_history.cpp: should_compile (S1, S2, SExit1, SExit2, S3..S5 =
1..7, SubState = 8) -/

def exitHistory : Machine := .ofList
  [ { table := some
        [ row (ini 5) (ev 1) none none (.st 6), row (.st 6) (ev 2) none none (.st 8),
          row (.st 8) (ev 2) none none (.ps true (.history 8)),
          row (.st 7) .none none none (.st 6),
          row (.ps false (.exit 8 3)) .none none none (.st 7),
          row (.ps false (.exit 8 4)) .none none none (.st 6) ] },
    { }, { }, { }, { }, { }, { }, { },
    { table := some [row (ini 1) .none none none (.st 3), row (.st 2) (ev 3) none none (.st 4)] } ] [1]

example : case exitHistory [] = true := by decide +kernel

/-! ## history_pseudo_state.cpp (S1..S3 = 1..3, SubState = 4) -/

def history : Machine := .ofList
  [ { table := some
        [ row (ini 1) (ev 1) none (some 1) (.st 4),
          row (.st 1) (ev 2) none (some 1) (.ps true (.history 4)),
          row (.st 4) (ev 3) none (some 1) (.st 2),
          row (.st 4) (ev 2) none (some 1) (.ps true (.history 4)) ] },
    { }, { }, { },
    { table := some [row (ini 1) (ev 1) none (some 1) (.st 2)] } ] [1]

-- should_reentry_substate_in_history_state
example : case history [.isIn 0 0 1 true, .ev 1, .isIn 0 4 1 true, .ev 1, .isIn 0 4 2 true, .ev 2,
    .isIn 0 4 2 true] = true := by decide +kernel
-- should_enter_history_substate_first_time_on_initial_state
example : case history [.isIn 0 0 1 true, .ev 2, .isIn 0 0 1 false, .isIn 0 4 1 true] = true := by
  decide +kernel

/-! ## internal_transition.cpp (S1..S3 = 1..3, SubState = 4, InternalOnlySubState = 5;
hsm::log = 1, action = 2, chain(log, error) = 3, fail = 10) -/

def internal : Machine := .ofList
  [ { table := some
        [ row (ini 1) (ev 1) none none (.st 2), row (.st 1) (ev 7) none none (.st 2),
          row (.st 1) (ev 3) none none (.st 4), row (.st 2) (ev 6) none none (.st 1),
          row (.st 1) (ev 10) none none (.st 5) ]
      itable := some
        [ ⟨ev 1, none, none⟩, ⟨ev 2, none, some 2⟩, ⟨ev 5, some 10, some 1⟩,
          ⟨ev 4, some 10, some 2⟩, ⟨ev 8, none, some 3⟩, ⟨ev 9, none, none⟩ ] },
    { }, { onEntry := some 20, onExit := some 21 }, { },
    { table := some [row (ini 1) (ev 1) none none (.st 2), row (.st 1) (ev 5) none none (.st 3)]
      itable := some [⟨ev 1, none, none⟩, ⟨ev 8, none, some 1⟩] },
    { itable := some [⟨ev 11, none, none⟩] } ] [1]

-- should_overwrite_internal_by_inner_external_transition
example : case internal [.is 1 true, .ev 1, .is 2 true] = true := by decide +kernel
-- should_overwrite_internal_by_inner_transition_in_substate
example : case internal [.ev 3, .isIn 0 4 1 true, .ev 1, .isIn 0 4 2 true] = true := by decide +kernel
-- should_call_action_on_internal_transition
example : case internal [.is 1 true, .ev 2, .is 1 true, .called [2]] = true := by decide +kernel
-- should_guard_internal_transition, should_guard_internal_transition_with_action
example : case internal [.is 1 true, .ev 5, .is 1 true] = true := by decide +kernel
example : case internal [.is 1 true, .ev 4, .is 1 true, .notCalled 2] = true := by decide +kernel
-- should_not_overwrite_substate_transition_by_parent_internal_transition
example : case internal [.ev 3, .isIn 0 4 1 true, .ev 5, .isIn 0 4 3 true] = true := by decide +kernel
-- should_not_overwrite_substate_internal_transition_by_parent_internal_transition: not `error` (3)
example : case internal [.ev 3, .ev 1, .isIn 0 4 2 true, .ev 8, .isIn 0 4 2 true,
    .called [20, 1]] = true := by decide +kernel
-- should_not_transit_when_internal_transition_on_parent_state
example : case internal [.ev 3, .ev 1, .isIn 0 4 2 true, .ev 9, .isIn 0 4 2 true] = true := by
  decide +kernel
-- should_not_transit_to_initial_state
example : case internal [.is 1 true, .ev 7, .is 2 true, .ev 1, .is 2 true] = true := by
  decide +kernel
-- should_recognize_substates_with_only_internal_transition_table
example : case internal [.is 1 true, .ev 10, .is 5 true, .ret 11 true, .is 5 true] = true := by
  decide +kernel

/-! ## orthogonal_regions.cpp (S1..S7 = 1..7, SubState = 8; trueGuard = 110, falseGuard = 10) -/

def regions : Machine := .ofList
  [ { table := some
        [ row (ini 1) (ev 1) (some 110) none (.st 2), row (.st 1) (ev 2) (some 110) none (.st 4),
          row (.st 1) (ev 3) (some 10) none (.st 2), row (.st 1) (ev 4) (some 110) none (.st 2),
          row (.st 1) (ev 5) (some 10) none (.st 2), row (.st 1) (ev 6) (some 110) none (.st 6),
          row (.st 6) .none (some 10) none (.st 1), row (.st 2) (ev 1) (some 110) none (.st 8),
          row (.st 4) .none (some 110) none (.st 1),
          row (ini 3) (ev 1) (some 110) none (.st 4), row (.st 3) (ev 2) (some 110) none (.st 5),
          row (.st 3) (ev 3) (some 10) none (.st 2), row (.st 3) (ev 4) (some 10) none (.st 2),
          row (.st 3) (ev 5) (some 110) none (.st 2), row (.st 3) (ev 6) (some 110) none (.st 7),
          row (.st 7) .none (some 110) none (.st 1), row (.st 5) .none (some 110) none (.st 1) ] },
    { }, { }, { }, { }, { }, { }, { },
    { table := some [row (ini 1) (ev 1) (some 110) none (.st 2)] } ] [1]

example : case regions [.isIn 0 0 1 true, .isIn 1 0 3 true] = true := by decide +kernel
example : case regions [.ev 1, .isIn 0 0 2 true, .isIn 1 0 4 true] = true := by decide +kernel
example : case regions [.ev 2, .isIn 0 0 1 true, .isIn 1 0 1 true] = true := by decide +kernel
example : case regions [.ev 3, .isIn 0 0 1 true, .isIn 1 0 3 true] = true := by decide +kernel
example : case regions [.ev 4, .isIn 0 0 2 true, .isIn 1 0 3 true] = true := by decide +kernel
example : case regions [.ev 5, .isIn 0 0 1 true, .isIn 1 0 2 true] = true := by decide +kernel
example : case regions [.ev 6, .isIn 0 0 6 true, .isIn 1 0 1 true] = true := by decide +kernel

/-! ## set_state.cpp (S1 = 1, S2 = 2, SubState = 3) -/

def setting : Machine := .ofList
  [ { table := some [row (ini 1) (ev 1) none none (.st 2), row (.st 1) (ev 1) none none (.st 3)] },
    { }, { }, { table := some [row (ini 1) (ev 1) none none (.st 2)] } ] [1]

example : case setting [.is 1 true, .set 0 0 2, .is 2 true] = true := by decide +kernel
example : case setting [.is 1 true, .set 0 3 2, .isIn 0 3 2 true] = true := by decide +kernel
example : case setting [.setThrows 1 3 1] = true := by decide +kernel

/-! ## process_event_return_bool.cpp (S1 = 1, S2 = 2) -/

def returns : Machine := .ofList
  [ { table := some
        [ row (ini 1) (ev 1) none (some 1) (.st 2), row (.st 2) (ev 2) none (some 1) (.st 1),
          row (.st 2) (ev 4) none (some 1) (.st 1), row (.st 1) (ev 3) (some 10) (some 1) (.st 2) ] },
    { }, { defer := some [ev 4] } ] [1]

example : case returns [.ret 1 true] = true := by decide +kernel
example : case returns [.ret 2 false] = true := by decide +kernel
example : case returns [.ret 3 false] = true := by decide +kernel
example : case returns [.ev 1, .ret 4 false] = true := by decide +kernel

/-! ## unexpected_event_handler.cpp (S1..S3 = 1..3; alwaysFalse = 10) -/

def unexpected : Machine := .ofList
  [ { table := some
        [ row (ini 1) (ev 1) none none (.st 2), row (.st 1) (ev 3) none none (.st 3),
          row (.st 2) (ev 2) none none (.st 1), row (.st 3) (ev 2) (some 10) none (.st 1) ]
      handler := some 50 } ] [1]

-- should_call_unexpected_event_handler
example : case unexpected [.ret 2 false, .called [50]] = true := by decide +kernel
-- should_not_call_unexpected_event_handler_when_guard_fails
example : case unexpected [.ret 3 true, .ret 2 false, .called [10]] = true := by decide +kernel

/-! ## initial_state.cpp, no_action.cpp, transition_logging.cpp, dependency_injection.cpp -/

def initialState : Machine := .ofList [{ table := some [row (ini 1) (ev 1) none none (.st 1)] }] [1]

example : case initialState [.is 1 true, .ev 1, .is 1 true] = true := by decide +kernel

/-- Written with `hsm::transition(*state<S1>, …)`, which keeps `initial_t<S1>`. -/
def noAction : Machine :=
  .ofList [{ table := some [row (.ps true (.initial 1)) (ev 1) none none (.st 1)] }] [1]

example : case noAction [.ev 1] = true := by decide +kernel

def logging : Machine := .ofList
  [ { table := some
        [row (ini 1) (ev 1) none (some 1) (.st 2), row (.st 2) (ev 2) none (some 1) (.st 1)]
      handler := some 50 } ] [1]

example : case logging [.is 1 true, .ev 1, .is 2 true] = true := by decide +kernel
example : case logging [.is 1 true, .ev 2, .is 1 true] = true := by decide +kernel

def injected : Machine :=
  .ofList [{ table := some [row (ini 1) (ev 1) (some 110) (some 1) (.st 1)] }] [1]

-- should_inject_dependency: guard and action
example : case injected [.ev 1, .called [110, 1]] = true := by decide +kernel
-- should_set_dependency
example : case injected [.ev 1, .called [110, 1], .dep 8, .ev 1] = true := by decide +kernel

/-! ## reproducer/should_enter_substate_with_multiple_regions.cpp (S1 = 1, S2 = 2,
SubState = 3), reproducer/should_execute_anonymous_transition_once.cpp (S1..S3 = 1..3,
SubState1 = 4, SubState2 = 5; log = 1, chain(log, increaseCallCount) = 2) -/

def enterRegions : Machine := .ofList
  [ { table := some [row (ini 1) (ev 1) none none (.st 3)] }, { }, { },
    { table := some [row (ini 1) (ev 2) none none (.st 1), row (ini 2) (ev 2) none none (.st 2)] } ] [1]

example : case enterRegions [.ev 1] = true := by decide +kernel

def anonOnce : Machine := .ofList
  [ { table := some
        [ row (ini 1) (ev 1) none (some 1) (.st 4), row (.st 1) (ev 2) none (some 1) (.st 5),
          row (.st 4) (ev 3) none (some 1) (.st 5) ]
      handler := some 50 },
    { }, { }, { },
    { table := some [row (ini 1) .none none (some 1) (.st 2)] },
    { table := some [row (ini 1) .none none (some 2) (.st 2), row (.st 2) (ev 4) none (some 1) (.st 3)] } ]
  [1]

example : case anonOnce [.isIn 0 0 1 true, .ev 2, .isIn 0 5 2 true, .ev 4, .isIn 0 5 3 true,
    .called [1, 2, 1]] = true := by decide +kernel

/-! ## custom_targets.cpp: `S2` (= 2) is not default constructible -/

/-- The object of `S2` exists once `create_state` (numbered 1 and 2) ran. -/
def custom : Machine := .ofList
  [ { table := some
        [ row (ini 1) (ev 1) none (some 1) (.st 2), row (.st 1) (ev 4) none (some 2) (.st 2),
          row (.st 1) (ev 3) none none (.st 2), row (.st 1) (ev 2) none (some 3) (.st 2),
          row (.st 2) (ev 2) none (some 4) (.st 1) ]
      handler := some 50 },
    { }, { defaultCtor := false } ] [1]

example : case custom [.is 1 true, .ev 1, .is 2 true] = true := by decide +kernel
example : case custom [.is 1 true, .ev 4, .is 2 true] = true := by decide +kernel
example : case custom [.is 1 true, .ev 1, .ev 2, .ev 2, .is 2 true, .ev 2, .is 1 true, .ev 3,
    .is 2 true] = true := by decide +kernel

/-! ## amalgamation_header.cpp (S1 = 1), with gen/hsm.h -/

/-- A test case that only asks, on a fresh machine of gen/hsm.h. -/
def caseG (M : Machine) (ls : List Line) : Bool :=
  match constructG M 7 [] with
  | .ok s => passes M ls s
  | .error _ => false

def amalgamation : Machine := .ofList
  [ { table := some [row (ini 1) (ev 1) none none (.st 1)] }, { } ] []

-- should_start_in_initial_state
example : caseG amalgamation [.is 1 true] = true := by decide +kernel

end Hsm.RepoTests
