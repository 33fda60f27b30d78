import Verif.Basic

/-!
# Machines as the compiler sees them

Models the compile-time part of the library: state, event and row types,
`traits.h`, `resolve_state.h`, `has_action.h`, `collect_*.h`, `flatten_*.h`,
`transition_table_traits.h` and `idx.h`.
-/

namespace Hsm

/-- A user's state struct (any class used as `hsm::state<S>`). (state.h:98) -/
abbrev Name := Nat

/-- A user's callback (guard, action, entry/exit action, handler).  The library
keys on the callback's *type* when it removes duplicate internal rows; the model
identifies type and value. (flatten_internal_transition_table.h; transition.h) -/
abbrev Cb := Nat

/-- The tuple of optional dependencies handed to the constructor or to
`set_dependency` (sm.h:47, :169).  Only its identity matters here. -/
abbrev Dep := Nat

/-- Event types; `none` is `noneEvent` (event.h:37). -/
inductive EventTy
  | none
  | user (n : Nat)
deriving DecidableEq, Repr

/-- Pseudo states (pseudo_states.h:47-104). -/
inductive Pseudo
  | initial (s : Name)
  | exit (p s : Name)
  | entry (p s : Name)
  | direct (p s : Name)
  | history (p : Name)
deriving DecidableEq, Repr

/-- The type of a state as written in a row.  `st s` is `state_t<s>`.
`ps false k` is `state_t<k>` (what the DSL makes of pseudo-state *sources* and of
targets in prefix notation, transition_dsl.h:77-126, state.h:44-87); `ps true k` is
`initial_t`/`exit_t`/`entry_t`/`direct_t`/`history_t` (state.h:105-133).  The two
are different types for the library, although they have the same `::type`. -/
inductive StTy
  | st (s : Name)
  | ps (own : Bool) (k : Pseudo)
deriving DecidableEq, Repr

/-- `details::Transition` (transition.h:13-48).  `guard = none` is `noGuard`,
`action = none` is `noAction`. -/
structure Row where
  source : StTy
  event : EventTy
  guard : Option Cb
  action : Option Cb
  target : StTy
deriving DecidableEq, Repr

/-- `details::InternalTransition` (transition.h:50-75). -/
structure IRow where
  event : EventTy
  guard : Option Cb
  action : Option Cb
deriving DecidableEq, Repr

/-- `details::ExtendedTransition` (transition.h:77-131).  `parent` is always some
`state_t<P>`, represented by the name `P`. -/
structure XRow where
  parent : Name
  source : StTy
  event : EventTy
  guard : Option Cb
  action : Option Cb
  target : StTy
  internal : Bool
deriving DecidableEq, Repr

/-- Static members of a state struct, detected by `traits.h:70-92`:
`make_transition_table`, `make_internal_transition_table`, `on_entry`, `on_exit`,
`defer_events`, `on_unexpected_event`, and whether it is default constructible
(`traits.h:31-32`). -/
structure Decl where
  table : Option (List Row) := none
  itable : Option (List IRow) := none
  onEntry : Option Cb := none
  onExit : Option Cb := none
  defer : Option (List EventTy) := none
  handler : Option Cb := none
  defaultCtor : Bool := true

/-- A machine: the declarations reachable from `sm<RootState>`.  `rank` bounds the
nesting of composites; see `Machine.Ranked`. (sm.h:29-33) -/
structure Machine where
  decl : Name → Decl
  root : Name
  rank : Name → Nat

namespace Machine

variable (M : Machine)

/-- `has_transition_table(state_t<s>)` (traits.h:70-72). -/
def isComposite (s : Name) : Bool := (M.decl s).table.isSome

/-- `make_transition_table2(state_t<s>)` (traits.h:67-68).  For a state without a
table the C++ does not compile; no caller below asks for one unless
`isComposite s` (or, for history parents, the row is rejected, see `resolveDst`). -/
def rows (s : Name) : List Row := (M.decl s).table.getD []

/-- `has_transition_table` on an arbitrary state type: pseudo states have none. (traits.h:70-72) -/
def compositeTy : StTy → Bool
  | .st s => M.isComposite s
  | .ps _ _ => false

/-- `resolveSubStateParent` followed by the `has_transition_table` test of
`flatten_sub_transition_table` (resolve_state.h:13-25,
flatten_transition_table.h:45-55): the composite a row with this target leads
into, if any. -/
def subMachine : StTy → Option Name
  | .st s => if M.isComposite s then some s else none
  | .ps _ (.entry p _) => if M.isComposite p then some p else none
  | .ps _ (.direct p _) => if M.isComposite p then some p else none
  | .ps _ (.history p) => if M.isComposite p then some p else none
  | .ps _ (.exit _ _) => none
  | .ps _ (.initial _) => none

/-- `details::extended_transition` (transition.h:137-151). -/
def ext (p : Name) (r : Row) : XRow :=
  { parent := p, source := r.source, event := r.event, guard := r.guard,
    action := r.action, target := r.target, internal := false }

/-- `flatten_transition_table` (flatten_transition_table.h:32-41) with the nesting
depth bounded by the first argument. -/
def flattenF : Nat → Name → List XRow
  | 0, _ => []
  | n + 1, s =>
    (M.rows s).flatMap fun r =>
      ext s r :: (match M.subMachine r.target with
        | some p => flattenF n p
        | none => [])

/-- `flatten_transition_table(state_t<s>)`. (flatten_transition_table.h:32-41) -/
def flatten (s : Name) : List XRow := M.flattenF (M.rank s + 1) s

/-- `flatten_transition_table(rootState)`: all external rows in force.
(sm.h:56; flatten_transition_table.h:32-41) -/
def flat : List XRow := M.flatten M.root

/-- Nesting of composites is well founded (otherwise the C++ template recursion in
flatten_transition_table.h:32-55 does not end and the program does not compile). -/
def Ranked : Prop :=
  ∀ s r p, r ∈ M.rows s → M.subMachine r.target = some p → M.rank p < M.rank s

/-- `resolveInitialState` / `resolveExtentedInitialState`
(collect_states.h:23-37): strip the initial marker from a source. -/
def stripInitial : StTy → StTy
  | .ps _ (.initial s) => .st s
  | x => x

/-- `collect_parent_state_typeids` (collect_parent_states.h:17-24). -/
def parents : List Name := uniq (M.flat.map (·.parent))

/-- `collect_child_state_typeids_recursive` (collect_states.h:61-67). -/
def subStateIds : List StTy :=
  uniq (M.flat.flatMap fun t => [stripInitial t.source, t.target])

/-- `collect_state_typeids_recursive` (collect_states.h:74-79). -/
def stateIds : List StTy := M.subStateIds ++ [.st M.root]

/-- `collect_child_state_typeids` (collect_states.h:86-92). -/
def childIds (s : Name) : List StTy :=
  uniq ((M.rows s).flatMap fun r => [stripInitial r.source, r.target])

/-- `collect_child_states` (collect_states.h:94-98): like `childIds`, but initial
markers are kept. -/
def childStates (s : Name) : List StTy :=
  uniq ((M.rows s).flatMap fun r => [r.source, r.target])

/-- `get_state` of an initial pseudo state (traits.h:45-47). -/
def initialOf? : StTy → Option Name
  | .ps _ (.initial s) => some s
  | _ => none

/-- `collect_initial_states` (collect_initial_states.h:25-30); the results are
`state_t<s>`, represented by `s`. -/
def initials (s : Name) : List Name := (M.childStates s).filterMap initialOf?

/-- `collect_state_parentstate_pairs_recursively` (collect_states.h:100-105). -/
def statePairs : List (Name × StTy) :=
  uniq ((M.root, .st M.root) ::
    M.flat.flatMap fun t => [(t.parent, stripInitial t.source), (t.parent, t.target)])

/-- `extend_internal_transition` / `extend_internal_transition2`
(flatten_internal_transition_table.h:64-96): an internal row placed at `state`
under `parent`. -/
def internalRow (parent : Name) (state : StTy) (i : IRow) : XRow :=
  { parent := parent, source := state, event := i.event, guard := i.guard,
    action := i.action, target := state, internal := true }

/-- The body of `get_internal_transitions` for one (parent, state) pair
(flatten_internal_transition_table.h:104-132), including
`get_internal_transition_table` (:39-55): a composite's internal rows are placed at
all its child states, a simple state's internal rows at itself. -/
def internalRowsOf : Name × StTy → List XRow
  | (p, .st s) =>
    match (M.decl s).itable with
    | none => []
    | some is =>
      if M.isComposite s then
        is.flatMap fun i => (M.childStates s).map fun c => internalRow s c i
      else
        is.map fun i => internalRow p (.st s) i
  | (_, .ps _ _) => []

/-- `flatten_internal_transition_table` (flatten_internal_transition_table.h:139-145)
with `remove_duplicate_types` (remove_duplicates.h:24-27), which keeps the first of
several rows of the same type. -/
def iflat : List XRow := uniq (M.statePairs.flatMap M.internalRowsOf)

/-- `collect_event_typeids_recursive` (collect_events.h:28-33). -/
def eventIds : List EventTy := uniq ((M.flat ++ M.iflat).map (·.event))

/-- `has_anonymous_transition` (transition_table_traits.h:21-26); external rows only. -/
def hasAnon : Bool := M.flat.any fun t => t.event == .none

/-- `is_history_state` (traits.h:112-117). -/
def isHistory : StTy → Bool
  | .ps _ (.history _) => true
  | _ => false

/-- `has_history` (transition_table_traits.h:28-33). -/
def hasHistory : Bool := M.flat.any fun t => isHistory t.target

/-- `defer_events` of a state type (traits.h:90-92, :147-148). -/
def deferOf : StTy → Option (List EventTy)
  | .st s => (M.decl s).defer
  | .ps _ _ => none

/-- `getDeferingTransitions` (fill_dispatch_table.h:225-231). -/
def deferringRows : List XRow :=
  M.flat.filter fun t => (M.deferOf (stripInitial t.source)).isSome

/-- `hasDeferedEvents` (fill_dispatch_table.h:233-235). -/
def hasDefer : Bool := !M.deferringRows.isEmpty

/-- `nParentStates` (fill_dispatch_table.h:33-36). -/
def nParents : Nat := M.parents.length

/-- `nStates` (fill_dispatch_table.h:38-41). -/
def nStates : Nat := M.stateIds.length

/-- `nStates(rootState) * nParentStates(rootState)`: the length of every dispatch
table (make_dispatch_tables.h:28). -/
def size : Nat := M.nStates * M.nParents

/-- `getCombinedStateTypeids` (idx.h:40-47). -/
def combinedIds : List (Name × StTy) := product M.parents M.stateIds

/-- `getCombinedStateIdx` (idx.h:55-60). -/
def comb (p : Name) (s : StTy) : Nat := indexOf M.combinedIds (p, s)

/-- `getParentStateIdx` (idx.h:32-34). -/
def parentIdx (p : Name) : Nat := indexOf M.parents p

/-- `getStateIdx` (idx.h:36-38). -/
def stateIdx (s : StTy) : Nat := indexOf M.stateIds s

/-- `maxInitialStates` (collect_initial_states.h:131-145). -/
def maxInit : Nat := (M.parents.map fun p => (M.initials p).length).foldl max 0

/-- `hasParallelRegions` (fill_dispatch_table.h:48-51). -/
def parallel : Bool := decide (1 < M.maxInit)

/-! ## Resolution of rows -/

/-- `resolveSrc` (resolve_state.h:63-76). -/
def resolveSrc (t : XRow) : StTy :=
  match t.source with
  | .ps _ (.initial s) => .st s
  | .ps _ (.exit _ s) => .st s
  | .ps _ (.direct _ s) => .st s
  | x => x

/-- `resolveSrcParent` (resolve_state.h:78-89). -/
def resolveSrcParent (t : XRow) : Name :=
  match t.source with
  | .ps _ (.exit p _) => p
  | .ps _ (.direct p _) => p
  | _ => t.parent

/-- `resolveDst` (resolve_state.h:27-44).  `none`: `bh::at_c<0>` of an empty tuple
of initial states, which does not compile. -/
def resolveDst (t : XRow) : Option StTy :=
  match t.target with
  | .st s => if M.isComposite s then (M.initials s).head?.map .st else some (.st s)
  | .ps _ (.entry _ s) => some (.st s)
  | .ps _ (.direct _ s) => some (.st s)
  | .ps _ (.history p) => (M.initials p).head?.map .st
  | .ps _ (.initial s) => some (.st s)
  | .ps o (.exit p s) => some (.ps o (.exit p s))

/-- `resolveDstParent` (resolve_state.h:46-61). -/
def resolveDstParent (t : XRow) : Name :=
  match t.target with
  | .st s => if M.isComposite s then s else t.parent
  | .ps _ (.entry p _) => p
  | .ps _ (.direct p _) => p
  | .ps _ (.history p) => p
  | _ => t.parent

/-- `resolveHistory` (resolve_state.h:162-169). -/
def resolveHistory (t : XRow) : Bool := isHistory t.target

/-- `on_entry` of a state type (traits.h:78-80, :143-144). -/
def entryOf : StTy → Option Cb
  | .st s => (M.decl s).onEntry
  | .ps _ _ => none

/-- `on_exit` of a state type (traits.h:82-84, :145-146). -/
def exitOf : StTy → Option Cb
  | .st s => (M.decl s).onExit
  | .ps _ _ => none

/-- `has_substate_initial_state_entry_action` and the action it refers to
(has_action.h:18-24). -/
def initEntryOf : StTy → Option Cb
  | .st s =>
    if M.isComposite s then
      (match (M.initials s).head? with
       | some i => (M.decl i).onEntry
       | none => none)
    else none
  | .ps _ _ => none

/-- `has_pseudo_exit_action` and the action it refers to (has_action.h:26-29). -/
def pseudoExitOf (t : XRow) : Option Cb :=
  match t.source with
  | .ps _ (.exit p _) => (M.decl p).onExit
  | _ => none

/-- The four places a callback of a row can come from. (fill_dispatch_table.h; resolve_state.h) -/
inductive _root_.Hsm.Phase
  | exit
  | action
  | entry
  | initEntry
deriving DecidableEq, Repr

/-- `resolveExitAction` (resolve_state.h:111-125). -/
def resolveExitAction (t : XRow) : Option Cb :=
  if t.internal then none
  else match M.exitOf t.source with
    | some a => some a
    | none => M.pseudoExitOf t

/-- `resolveEntryAction` (resolve_state.h:91-100). -/
def resolveEntryAction (t : XRow) : Option Cb :=
  if t.internal then none else M.entryOf t.target

/-- `resolveInitialStateEntryAction` (resolve_state.h:102-109).  Note that the C++
does not test `transition.internal()` here. -/
def resolveInitEntryAction (t : XRow) : Option Cb := M.initEntryOf t.target

/-- `has_action` (has_action.h:31-38). -/
def hasAction (t : XRow) : Bool :=
  t.action.isSome || (M.entryOf t.target).isSome || (M.initEntryOf t.target).isSome
    || (M.exitOf t.source).isSome || (M.pseudoExitOf t).isSome

/-- `resolveEntryExitAction` (resolve_state.h:138-149) with `resolveNoAction`
(:127-136): the callbacks in the order they are called; absent ones are no-ops. -/
def resolveEntryExitAction (t : XRow) : List (Phase × Cb) :=
  (M.resolveExitAction t).toList.map (Phase.exit, ·)
    ++ t.action.toList.map (Phase.action, ·)
    ++ (M.resolveEntryAction t).toList.map (Phase.entry, ·)
    ++ (M.resolveInitEntryAction t).toList.map (Phase.initEntry, ·)

/-- `resolveAction` (resolve_state.h:151-160).  `none` is `noAction`: when
`has_action` is false the row's own action is `noAction`. -/
def resolveAction (t : XRow) : Option (List (Phase × Cb)) :=
  if M.hasAction t then some (M.resolveEntryExitAction t) else none

/-- Whether the object of a state type is default constructible (traits.h:31-32,
:51-58).  Pseudo state classes are. -/
def defaultCtor : StTy → Bool
  | .st s => (M.decl s).defaultCtor
  | .ps _ _ => true

end Machine
end Hsm
