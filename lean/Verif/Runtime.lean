import Verif.Tables

/-!
# The running machine

Models `sm.h` and `dispatch_table.h`.
-/

namespace Hsm

/-- Kinds of undefined behaviour the model distinguishes.
(for the places see where it is used: sm.h:160-165, 192, 198, 289-304, 314, 332, 353, 361) -/
inductive UB
  /-- a slot of `m_currentCombinedState` that was never written is read -/
  | uninit
  /-- an array or vector is indexed out of bounds with `operator[]` -/
  | bounds
  /-- `result.transition->...` with a null pointer -/
  | nullTransition
  /-- `**source` or `**target` with no object -/
  | nullObject
  /-- a null unexpected-event handler is called -/
  | nullHandler
  /-- a user callback itself does something undefined (e.g. `reuse_state` on a
  missing object) -/
  | callback
  /-- a loop over a deque goes on after the deque was pushed to (only `Reentrant.lean`:
  guards that call `set_dependency`) -/
  | iterator
deriving DecidableEq, Repr

/-- Exceptions that leave the library. (thrown by callbacks, `at` in sm.h:152, 332, 339 and variant_queue.h:52) -/
inductive Exn
  | user (n : Nat)
  | outOfRange
  | runtimeError
deriving DecidableEq, Repr

/-- Outcome of running library code on a machine object: normal return, an
exception (the machine object lives on), undefined behaviour, or out of fuel. (sm.h:88-373) -/
inductive Res (σ α : Type)
  | ok (a : α) (s : σ)
  | throw (x : Exn) (s : σ)
  | ub (u : UB)
  | timeout

namespace Res
variable {σ α β : Type}

/-- Sequencing. (the `;` of sm.h:88-373) -/
def bind (r : Res σ α) (f : α → σ → Res σ β) : Res σ β :=
  match r with
  | .ok a s => f a s
  | .throw x s => .throw x s
  | .ub u => .ub u
  | .timeout => .timeout

end Res

/-- What a callback is called with (dispatch_table.h:54-115): the event type, the
source object, the target object (or the pointer to it if `byPtr`), the
dependency. -/
structure Args where
  event : EventTy
  src : StTy
  dst : StTy
  byPtr : Bool
  dep : Dep
deriving DecidableEq, Repr

/-- What a user callback does: return, throw, or undefined behaviour; the event
payload and the world may have changed. (called from dispatch_table.h:54-162) -/
inductive CbRes (P W α : Type)
  | ok (a : α) (p : P) (w : W)
  | throw (n : Nat) (p : P) (w : W)
  | ub

/-- The user's code: arbitrary callbacks over an arbitrary payload type `P` and
world `W`.  `alive s w` says whether the object of a state without default
constructor exists.  `nonePayload` is the value `noneEvent{}` (sm.h:227). -/
structure Sem (P W : Type) where
  guard : Cb → Args → P → W → CbRes P W Bool
  action : Cb → Args → P → W → CbRes P W Unit
  handler : Cb → EventTy → StTy → Dep → P → W → CbRes P W Unit
  alive : StTy → W → Bool
  nonePayload : P

/-- One observable callback invocation.  `res = none`: it threw.  `cur` (ghost) is the
content of `m_currentCombinedState` at the time of the invocation. (the calls in dispatch_table.h:54-162) -/
inductive Call (P : Type)
  | guard (g : Cb) (args : Args) (p : P) (res : Option Bool) (cur : List (Option Nat))
  | action (ph : Phase) (a : Cb) (args : Args) (p : P) (threw : Bool)
      (cur : List (Option Nat))
  | handler (h : Cb) (e : EventTy) (s : StTy) (d : Dep) (p : P) (threw : Bool)
      (cur : List (Option Nat))
deriving DecidableEq, Repr

/-- A fired external row (ghost): region, `m_currentCombinedState` before and after
the move, and the number of callback invocations before it. (sm.h:212, 260) -/
structure Firing where
  region : Nat
  before : List (Option Nat)
  after : List (Option Nat)
  calls : Nat
deriving DecidableEq, Repr

/-- The data members of `sm` (sm.h:37-44), the user's world, the trace of
callback invocations so far (ghost) and the list of moves so far (ghost).  `cur` slots start indeterminate (`none`):
the constructor does not initialise `m_currentCombinedState`. -/
structure SM (P W : Type) where
  cur : List (Option Nat)
  initial : List (List Nat)
  hist : List (List Nat)
  queue : List (EventTy × P)
  regions : Nat
  table : Table
  handlers : HTable
  world : W
  trace : List (Call P)
  log : List Firing

section
variable {P W : Type} (M : Machine) (sem : Sem P W)

/-- `m_currentCombinedState[r]` (unchecked read). (sm.h:289, 344, 361) -/
def readCur (r : Nat) (s : SM P W) : Res (SM P W) Nat :=
  match s.cur[r]? with
  | none => .ub .bounds
  | some none => .ub .uninit
  | some (some c) => .ok c s

/-- `currentParentState` (sm.h:342-345): always taken from region 0. -/
def currentParent (s : SM P W) : Res (SM P W) Nat :=
  (readCur 0 s).bind fun c s => .ok (c / M.nStates) s

/-- `current_regions` (sm.h:318-325). -/
def currentRegions (s : SM P W) : Nat := if M.parallel then s.regions else 1

/-- `update_current_regions` (sm.h:310-316). -/
def updateRegions (s : SM P W) : Res (SM P W) Unit :=
  if M.parallel then
    (currentParent M s).bind fun p s =>
      match s.initial[p]? with
      | none => .ub .bounds
      | some l => .ok () { s with regions := l.length }
  else .ok () s

/-- `m_currentCombinedState[r] = c` (unchecked write). (sm.h:297-304, 353) -/
def writeCur (r c : Nat) (s : SM P W) : Res (SM P W) Unit :=
  if r < s.cur.length then .ok () { s with cur := s.cur.set r (some c) } else .ub .bounds

/-- `m_history[currentParentState()][region] = m_currentCombinedState[region]`
(sm.h:289), both brackets unchecked. -/
def saveHistory (r : Nat) (s : SM P W) : Res (SM P W) Unit :=
  (currentParent M s).bind fun p s =>
    (readCur r s).bind fun c s =>
      match s.hist[p]? with
      | none => .ub .bounds
      | some l =>
        if r < l.length then .ok () { s with hist := s.hist.set p (l.set r c) }
        else .ub .bounds

/-- `m_history[parent][region]` (sm.h:295), both brackets unchecked. -/
def readHistory (p r : Nat) (s : SM P W) : Res (SM P W) Nat :=
  match s.hist[p]? with
  | none => .ub .bounds
  | some l =>
    match l[r]? with
    | none => .ub .bounds
    | some c => .ok c s

/-- `update_current_state` (sm.h:280-308) for external rows. -/
def moveState (r : Nat) (e : Entry) (s : SM P W) : Res (SM P W) Unit :=
  if M.hasHistory then
    (saveHistory M r s).bind fun _ s =>
      (if e.history then
        (readHistory (e.to / M.nStates) r s).bind fun c s => writeCur r c s
       else writeCur r e.to s).bind fun _ s => updateRegions M s
  else (writeCur r e.to s).bind fun _ s => updateRegions M s

/-- `update_current_state` (sm.h:280-308); moves are recorded in the ghost `log`. -/
def updateState (r : Nat) (e : Entry) (s : SM P W) : Res (SM P W) Unit :=
  if e.internal then .ok () s
  else (moveState M r e s).bind fun _ s' =>
    .ok () { s' with log := s'.log ++ [⟨r, s.cur, s'.cur, s.trace.length⟩] }

/-- Does the object of state `st` exist?  Default constructible states are created
by `unwrap_typeid_to_shared_ptr` (traits.h:51-58) and never destroyed; others start
as null pointers. -/
def objOk (st : StTy) (s : SM P W) : Bool := M.defaultCtor st || sem.alive st s.world

/-- `executeGuard` (dispatch_table.h:85-115). -/
def execGuard (x : Exec) (ev : EventTy) (p : P) (s : SM P W) : Res (SM P W) (Bool × P) :=
  match x.guard with
  | none => .ok (true, p) s
  | some g =>
    let args : Args :=
      { event := ev, src := x.src, dst := if x.internal then x.src else x.dst,
        byPtr := false, dep := x.dep }
    if objOk M sem args.src s && objOk M sem args.dst s then
      match sem.guard g args p s.world with
      | .ok b p' w' =>
        .ok (b, p') { s with world := w', trace := s.trace ++ [.guard g args p (some b) s.cur] }
      | .throw n _ w' =>
        .throw (.user n) { s with world := w', trace := s.trace ++ [.guard g args p none s.cur] }
      | .ub => .ub .callback
    else .ub .nullObject

/-- The calls inside the lambda of `resolveEntryExitAction`
(resolve_state.h:143-148): one callback after the other, same arguments. -/
def runCbs (args : Args) : List (Phase × Cb) → P → SM P W → Res (SM P W) P
  | [], p, s => .ok p s
  | (ph, a) :: cs, p, s =>
    match sem.action a args p s.world with
    | .ok _ p' w' =>
      runCbs args cs p' { s with world := w', trace := s.trace ++ [.action ph a args p false s.cur] }
    | .throw n _ w' =>
      .throw (.user n) { s with world := w', trace := s.trace ++ [.action ph a args p true s.cur] }
    | .ub => .ub .callback

/-- The arguments `executeAction` passes (dispatch_table.h:63-79): the target object
if the target class is default constructible (the source object for internal rows),
otherwise the pointer to the target. -/
def actionArgs (x : Exec) (ev : EventTy) : Args :=
  if M.defaultCtor x.dst then
    { event := ev, src := x.src, dst := if x.internal then x.src else x.dst,
      byPtr := false, dep := x.dep }
  else
    { event := ev, src := x.src, dst := x.dst, byPtr := true, dep := x.dep }

/-- `executeAction` (dispatch_table.h:54-83).  `**source` is evaluated whenever
there is an action. -/
def execAction (x : Exec) (ev : EventTy) (p : P) (s : SM P W) : Res (SM P W) P :=
  match x.action with
  | none => .ok p s
  | some cs =>
    if objOk M sem x.src s then runCbs sem (actionArgs M x ev) cs p s
    else .ub .nullObject

/-- Update the state, then run the action (sm.h:212-214, :260-261). -/
def fire (r : Nat) (ev : EventTy) (e : Entry) (x : Exec) (p : P) (s : SM P W) :
    Res (SM P W) P :=
  (updateState M r e s).bind fun _ s => execAction M sem x ev p s

/-- What happened to an event in one region. (sm.h:194-216) -/
inductive RegionOut
  /-- `results.empty()` -/
  | none
  /-- there were candidates, all guards returned false -/
  | rejected
  /-- a row fired -/
  | fired
  /-- the event was deferred -/
  | deferred
deriving DecidableEq, Repr

/-- The inner loop of `process_event_internal` (sm.h:198-216) over the candidates
still to be tried. -/
def tryEntries (r : Nat) (ev : EventTy) : List Entry → P → SM P W → Res (SM P W) (RegionOut × P)
  | [], p, s => .ok (.rejected, p) s
  | e :: es, p, s =>
    if e.defer then .ok (.deferred, p) { s with queue := s.queue ++ [(ev, p)] }
    else match e.tr with
      | none => .ub .nullTransition
      | some x =>
        (execGuard M sem x ev p s).bind fun gp s =>
          if gp.1 then (fire M sem r ev e x gp.2 s).bind fun p s => .ok (.fired, p) s
          else tryEntries r ev es gp.2 s

/-- `get_dispatch_table_entry` (sm.h:357-362): unchecked array access. -/
def lookup (ev : EventTy) (r : Nat) (s : SM P W) : Res (SM P W) (List Entry) :=
  (readCur r s).bind fun c s =>
    if c < M.size then .ok (s.table ev c) s else .ub .bounds

/-- The body of the region loop of `process_event_internal` (sm.h:190-217). -/
def regionStep (r : Nat) (ev : EventTy) (p : P) (s : SM P W) : Res (SM P W) (RegionOut × P) :=
  (lookup M ev r s).bind fun es s =>
    match es with
    | [] => .ok (.none, p) s
    | es => tryEntries M sem r ev es p s

/-- Result of the region loop: left by `return EventDefered`, or completed with the
flags `allGuardsFailed` and `allTransitionsInvalid`. (sm.h:185-224) -/
inductive LoopOut
  | deferred
  | done (allGuardsFailed allTransitionsInvalid : Bool)
deriving DecidableEq, Repr

/-- The region loop of `process_event_internal` (sm.h:189-217) over the regions
still to be handled. -/
def regionLoop (ev : EventTy) : List Nat → Bool → Bool → P → SM P W →
    Res (SM P W) (LoopOut × P)
  | [], agf, ati, p, s => .ok (.done agf ati, p) s
  | r :: rs, agf, ati, p, s =>
    (regionStep M sem r ev p s).bind fun op s =>
      match op.1 with
      | .none => regionLoop ev rs agf ati op.2 s
      | .rejected => regionLoop ev rs agf false op.2 s
      | .fired => regionLoop ev rs false false op.2 s
      | .deferred => .ok (.deferred, op.2) s

/-- The inner loop of `process_anonymous_transitions` (sm.h:255-264).  The flag
`defer` is not tested there.  Returns whether a row fired. -/
def tryAnon (r : Nat) : List Entry → P → SM P W → Res (SM P W) (Bool × P)
  | [], p, s => .ok (false, p) s
  | e :: es, p, s =>
    match e.tr with
    | none => .ub .nullTransition
    | some x =>
      (execGuard M sem x .none p s).bind fun gp s =>
        if gp.1 then (fire M sem r .none e x gp.2 s).bind fun p s => .ok (true, p) s
        else tryAnon r es gp.2 s

/-- One pass of the region loop of `process_anonymous_transitions` (sm.h:247-265).
`none`: left by `return` because some region has no candidates; `some b`: completed
with `allGuardsFailed = b`. -/
def anonRound : List Nat → Bool → P → SM P W → Res (SM P W) (Option Bool × P)
  | [], agf, p, s => .ok (some agf, p) s
  | r :: rs, agf, p, s =>
    (lookup M .none r s).bind fun es s =>
      match es with
      | [] => .ok (none, p) s
      | es =>
        (tryAnon M sem r es p s).bind fun fp s =>
          anonRound rs (agf && !fp.1) fp.2 s

/-- The `while (true)` loop of `process_anonymous_transitions` (sm.h:243-270), at
most `fuel` iterations. -/
def anonLoop : Nat → P → SM P W → Res (SM P W) Unit
  | 0, _, _ => .timeout
  | fuel + 1, p, s =>
    (anonRound M sem (List.range (currentRegions M s)) true p s).bind fun op s =>
      match op.1 with
      | none => .ok () s
      | some true => .ok () s
      | some false => anonLoop fuel op.2 s

/-- `process_anonymous_transitions` (sm.h:240-272). -/
def processAnon (fuel : Nat) (s : SM P W) : Res (SM P W) Unit :=
  if M.hasAnon then anonLoop M sem fuel sem.nonePayload s else .ok () s

/-- `ProcessEventResult` (sm.h:176-181). -/
inductive ProcRes
  | allTransitionsInvalid
  | allGuardsFailed
  | processed
  | deferred
deriving DecidableEq, Repr

/-- `process_event_internal` (sm.h:183-229).  Also returns the event as the
callbacks left it. -/
def processInternal (fuel : Nat) (ev : EventTy) (p : P) (s : SM P W) :
    Res (SM P W) (ProcRes × P) :=
  (regionLoop M sem ev (List.range (currentRegions M s)) true true p s).bind fun op s =>
    match op.1 with
    | .deferred => .ok (.deferred, op.2) s
    | .done agf ati =>
      if ati then .ok (.allTransitionsInvalid, op.2) s
      else if agf then .ok (.allGuardsFailed, op.2) s
      else (processAnon M sem fuel s).bind fun _ s => .ok (.processed, op.2) s

/-- `process_deferred_events` (sm.h:231-238) with `variant_queue::visit`
(variant_queue.h:49-62): remove the front element, then process it; the result is
ignored. -/
def processDeferred (fuel : Nat) (s : SM P W) : Res (SM P W) Unit :=
  if M.hasDefer then
    match s.queue with
    | [] => .ok () s
    | (e, p) :: q =>
      (processInternal M sem fuel e p { s with queue := q }).bind fun _ s => .ok () s
  else .ok () s

/-- `call_unexpected_event_handler` (sm.h:327-335) with `executeHandler`
(make_unexpected_event_handler_tables.h:38-43).  `m_currentCombinedState.at(0)`
cannot be out of range: the array is not empty (sm.h:58-60). -/
def callHandler (ev : EventTy) (p : P) (s : SM P W) : Res (SM P W) P :=
  match (M.decl M.root).handler with
  | none => .ok p s
  | some h =>
    (readCur 0 s).bind fun c s =>
      if c < M.size then
        match s.handlers ev c with
        | none => .ub .nullHandler
        | some (st, d) =>
          if objOk M sem st s then
            match sem.handler h ev st d p s.world with
            | .ok _ p' w' =>
              .ok p' { s with world := w', trace := s.trace ++ [.handler h ev st d p false s.cur] }
            | .throw n _ w' =>
              .throw (.user n)
                { s with world := w', trace := s.trace ++ [.handler h ev st d p true s.cur] }
            | .ub => .ub .callback
          else .ub .nullObject
      else .throw .outOfRange s

/-- `process_event` (sm.h:88-107). -/
def processEvent (fuel : Nat) (ev : EventTy) (p : P) (s : SM P W) : Res (SM P W) Bool :=
  (processInternal M sem fuel ev p s).bind fun rp s =>
    match rp.1 with
    | .allTransitionsInvalid => (callHandler M sem ev rp.2 s).bind fun _ s => .ok false s
    | .deferred => .ok false s
    | .allGuardsFailed => .ok false s
    | .processed => (processDeferred M sem fuel s).bind fun _ s => .ok true s

/-- `set(region, parent, state)` (sm.h:142-154); the `Region` parameter is a
`uint8_t`.  `set(state)` and `set(parent, state)` (:132-140) are `set(0, root, state)`
and `set(0, parent, state)`. -/
def setOp (region : Nat) (p : Name) (st : StTy) (s : SM P W) : Res (SM P W) Unit :=
  if region % 256 < s.cur.length then
    .ok () { s with cur := s.cur.set (region % 256) (some (M.comb p st)) }
  else .throw .outOfRange s

/-- `m_currentCombinedState.at(r)` (checked read). (sm.h:332, 339) -/
def atCur (r : Nat) (s : SM P W) : Res (SM P W) Nat :=
  match s.cur[r]? with
  | none => .throw .outOfRange s
  | some none => .ub .uninit
  | some (some c) => .ok c s

/-- `currentState` (sm.h:337-340). -/
def currentState (r : Nat) (s : SM P W) : Res (SM P W) Nat :=
  (atCur r s).bind fun c s => .ok (c % M.nStates) s

/-- `is(state)` (sm.h:109-112). -/
def isState (st : StTy) (s : SM P W) : Res (SM P W) Bool :=
  (currentState M 0 s).bind fun c s => .ok (c == M.stateIdx st) s

/-- `parent_is(parent)` (sm.h:127-130). -/
def parentIs (p : Name) (s : SM P W) : Res (SM P W) Bool :=
  (currentParent M s).bind fun c s => .ok (c == M.parentIdx p) s

/-- `is(region, parent, state)` (sm.h:120-125); `&&` short-circuits and `region` is
a `uint8_t`. -/
def isRegion (region : Nat) (p : Name) (st : StTy) (s : SM P W) : Res (SM P W) Bool :=
  (parentIs M p s).bind fun b s =>
    if b then (currentState M (region % 256) s).bind fun c s => .ok (c == M.stateIdx st) s
    else .ok false s

/-- `is(parent, state)` (sm.h:114-118). -/
def isParent (p : Name) (st : StTy) (s : SM P W) : Res (SM P W) Bool := isRegion M 0 p st s

/-- `set_dependency` (sm.h:169-173): the tables are filled a second time on top of
the old contents.  A failure to fill would already have occurred in the
constructor; it is reported as undefined behaviour. -/
def setDependency (d : Dep) (s : SM P W) : Res (SM P W) Unit :=
  match M.fill d s.table with
  | .ok T => .ok () { s with table := T }
  | .error _ => .ub .bounds

/-- One record of `status()` (sm.h:161-164): region, combined index, parent index,
state index. -/
structure StatusRec where
  region : Nat
  combined : Nat
  parent : Nat
  state : Nat
deriving DecidableEq, Repr

/-- The loop of `status()` (sm.h:156-167) over the given regions. -/
def statusLoop : List Nat → SM P W → Res (SM P W) (List StatusRec)
  | [], s => .ok [] s
  | r :: rs, s =>
    (readCur r s).bind fun c s =>
      (currentParent M s).bind fun p s =>
        (currentState M r s).bind fun t s =>
          (statusLoop rs s).bind fun l s => .ok (⟨r, c, p, t⟩ :: l) s

/-- `status()` (sm.h:156-167), before rendering to text. -/
def status (s : SM P W) : Res (SM P W) (List StatusRec) :=
  statusLoop M (List.range (currentRegions M s)) s

/-- `init_current_state` (sm.h:347-355): write the root's initial states to the
first slots of an array of `maxInitialStates` indeterminate slots. -/
def initCur (init : List Nat) (slots : Nat) : List (Option Nat) :=
  init.map some ++ List.replicate (slots - init.length) none

/-- Filling the unexpected-event handler tables in the constructor (sm.h:72-79). -/
def initHandlers (dep : Dep) : Except BuildErr HTable :=
  if (M.decl M.root).handler.isSome then M.fillHandlers dep (fun _ _ => none)
  else .ok (fun _ _ => none)

/-- `fill_initial_state_table` (twice), `init_current_state` and
`update_current_regions` in the constructor (sm.h:82-85). -/
def initState (w : W) (H : HTable) (T : Table) : Except BuildErr (SM P W) :=
  match M.initialTable[M.parentIdx M.root]? with
  | none => .error .ub
  | some init =>
    match updateRegions M
        ({ cur := initCur init M.maxInit, initial := M.initialTable, hist := M.initialTable,
           queue := [], regions := 0, table := T, handlers := H, world := w, trace := [],
           log := [] }
          : SM P W) with
    | .ok _ s => .ok s
    | _ => .error .ub

/-- The constructor (sm.h:47-86).  `M.accepts` is what the compiler checks. -/
def construct (dep : Dep) (w : W) : Except BuildErr (SM P W) :=
  if M.accepts then do
    let H ← initHandlers M dep
    let T ← M.fill dep (fun _ _ => [])
    initState M w H T
  else .error .reject

/-! ## Histories -/

/-- A call on a machine object that can change it. (sm.h:88, 132-143, 169) -/
inductive Op (P : Type)
  | process (ev : EventTy) (p : P)
  | set (region : Nat) (p : Name) (st : StTy)
  | setDependency (d : Dep)

/-- Run one call.  `fuel` bounds each anonymous loop. (sm.h:88-173) -/
def step (fuel : Nat) : Op P → SM P W → Res (SM P W) Bool
  | .process ev p, s => processEvent M sem fuel ev p s
  | .set r p st, s => (setOp M r p st s).bind fun _ s => .ok true s
  | .setDependency d, s => (setDependency M d s).bind fun _ s => .ok true s

/-- The static assertions of `process_event` (sm.h:90-94) and `set` (sm.h:145-150):
calls outside them do not compile. -/
def OpOk : Op P → Prop
  | .process ev _ => ev ∈ M.eventIds
  | .set _ p st => p ∈ M.parents ∧ st ∈ M.stateIds
  | .setDependency _ => True

end
end Hsm
