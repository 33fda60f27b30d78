import Verif.Static

/-!
# Building the dispatch tables

Models `fill_dispatch_table.h`, `make_dispatch_tables.h`,
`fill_unexpected_event_handler_tables.h` and the static checks of the constructor
(`sm.h:53-68`).
-/

namespace Hsm

/-- `DispatchTableEntry` (dispatch_table.h:38-123): what a row does when run.
`src`/`dst` name the objects the entry was bound to; `action = none` is
`noAction`. -/
structure Exec where
  internal : Bool
  action : Option (List (Phase × Cb))
  guard : Option Cb
  src : StTy
  dst : StTy
  dep : Dep
deriving DecidableEq, Repr

/-- `NextState` (dispatch_table.h:155-162).  `tr = none` is a null `transition`
pointer.  The field `valid` is never read by the library and is left out. -/
structure Entry where
  to : Nat
  history : Bool
  defer : Bool
  internal : Bool
  tr : Option Exec
deriving DecidableEq, Repr

/-- `m_dispatchTables` (make_dispatch_tables.h:20-31): for every event an array of
`size` deques.  Only indices below `Machine.size` exist. -/
abbrev Table := EventTy → Nat → List Entry

/-- `m_unexpectedEventHandlerTables` (make_unexpected_event_handler_tables.h:51-65):
the object and dependency the handler at an index was bound to; `none` is a null
pointer. -/
abbrev HTable := EventTy → Nat → Option (StTy × Dep)

/-- Why a machine cannot be built: the compiler rejects it, or construction writes
outside a table. (sm.h:53-68, 90-94) -/
inductive BuildErr
  | reject
  | ub
deriving DecidableEq, Repr

namespace Machine

variable (M : Machine)

/-- `dispatchTable[c].push_front(en)` (fill_dispatch_table.h:80, :146, :250);
`std::array::operator[]` outside the array is undefined behaviour. -/
def pushFront (T : Table) (e : EventTy) (c : Nat) (en : Entry) : Except BuildErr Table :=
  if c < M.size then
    .ok fun e' c' => if e' = e ∧ c' = c then en :: T e' c' else T e' c'
  else .error .ub

/-- `make_transition` (dispatch_table.h:133-153). -/
def mkExec (dep : Dep) (t : XRow) (src dst : StTy) : Exec :=
  { internal := t.internal, action := M.resolveAction t, guard := t.guard,
    src := src, dst := dst, dep := dep }

/-- The table entry for row `t` with source object `src` and destination `dst`
(fill_dispatch_table.h:80-92, :146-162). -/
def mkEntry (dep : Dep) (t : XRow) (src dst : StTy) : Entry :=
  { to := M.comb (M.resolveDstParent t) dst, history := resolveHistory t, defer := false,
    internal := t.internal, tr := some (M.mkExec dep t src dst) }

/-- `addDispatchTableEntry` (fill_dispatch_table.h:60-103).  The two
`bh::find(statesMap, ..).value()` calls (:97-98) do not compile if the source or
the destination is not a state of the machine. -/
def addEntry (dep : Dep) (T : Table) (t : XRow) : Except BuildErr Table :=
  match M.resolveDst t with
  | none => .error .reject
  | some dst =>
    if resolveSrc t ∈ M.stateIds ∧ dst ∈ M.stateIds then
      M.pushFront T t.event (M.comb (resolveSrcParent t) (resolveSrc t))
        (M.mkEntry dep t (resolveSrc t) dst)
    else .error .reject

/-- One iteration of the loop in `addDispatchTableEntryOfSubMachineExits`
(fill_dispatch_table.h:130-173) for child `c` of composite `P`. -/
def addExit (dep : Dep) (t : XRow) (P : Name) (T : Table) (c : StTy) : Except BuildErr Table :=
  match M.resolveDst t with
  | none => .error .reject
  | some dst =>
    if StTy.st P ∈ M.stateIds ∧ dst ∈ M.stateIds then
      M.pushFront T t.event (M.comb P c) (M.mkEntry dep t (.st P) dst)
    else .error .reject

/-- `addDispatchTableEntryOfSubMachineExits` (fill_dispatch_table.h:112-175): an
external row whose source is a composite is also added at each of the composite's
child states. -/
def addExits (dep : Dep) (T : Table) (t : XRow) : Except BuildErr Table :=
  if t.internal then .ok T
  else match t.source with
    | .st P =>
      if M.isComposite P then (M.childIds P).foldlM (M.addExit dep t P) T else .ok T
    | .ps _ _ => .ok T

/-- The body of the inner loop of `fill_dispatch_table_with_transitions`
(fill_dispatch_table.h:205-221). -/
def addRow (dep : Dep) (T : Table) (t : XRow) : Except BuildErr Table := do
  let T ← M.addEntry dep T t
  M.addExits dep T t

/-- `fill_dispatch_table_with_transitions` (fill_dispatch_table.h:191-223). -/
def fillWith (dep : Dep) (rows : List XRow) (T : Table) : Except BuildErr Table :=
  (uniq (rows.map (·.event))).foldlM
    (fun T e => (rows.filter fun t => t.event = e).foldlM (M.addRow dep) T) T

/-- The entry pushed for a deferred event (fill_dispatch_table.h:250-251):
`NextState{}` with `defer = true`. -/
def deferEntry : Entry :=
  { to := 0, history := false, defer := true, internal := false, tr := none }

/-- The inner loop of `fill_dispatch_table_with_deferred_events` for one row
(fill_dispatch_table.h:244-252). -/
def addDeferred (T : Table) (t : XRow) : Except BuildErr Table :=
  ((M.deferOf (stripInitial t.source)).getD []).foldlM
    (fun T e => M.pushFront T e (M.comb (resolveSrcParent t) (resolveSrc t)) deferEntry) T

/-- `fill_dispatch_table_with_deferred_events` (fill_dispatch_table.h:238-254). -/
def fillDeferred (T : Table) : Except BuildErr Table :=
  M.deferringRows.foldlM M.addDeferred T

/-- `sm::fill_dispatch_table` (sm.h:364-372): internal rows, external rows,
deferred events, in this order. -/
def fill (dep : Dep) (T : Table) : Except BuildErr Table := do
  let T ← M.fillWith dep M.iflat T
  let T ← M.fillWith dep M.flat T
  M.fillDeferred T

/-- `fill_unexpected_event_handler_tables`
(fill_unexpected_event_handler_tables.h:42-74): bind a handler at every
event/parent/state combination.  `[combinedStateId]` is unchecked. -/
def fillHandlers (dep : Dep) (H : HTable) : Except BuildErr HTable :=
  M.eventIds.foldlM (fun H e =>
    M.parents.foldlM (fun H p =>
      M.stateIds.foldlM (fun (H : HTable) s =>
        if M.comb p s < M.size then
          .ok fun e' c' => if e' = e ∧ c' = M.comb p s then some (s, dep) else H e' c'
        else .error BuildErr.ub) H) H) H

/-- `collect_initial_state_stateidx` / `fill_initial_state_table`
(collect_initial_states.h:41-53, :83-104): for every parent, in order, the combined
indices of its initial states. -/
def initialTable : List (List Nat) :=
  M.parents.map fun p => (M.initials p).map fun s => M.comb p (.st s)

/-- A row passes the compile-time lookups of `addDispatchTableEntry`
(fill_dispatch_table.h:94-102, resolve_state.h:32, :38). -/
def rowCompiles (t : XRow) : Bool :=
  match M.resolveDst t with
  | none => false
  | some dst => decide (resolveSrc t ∈ M.stateIds ∧ dst ∈ M.stateIds)

/-- What the compiler checks: the static assertions of the constructor
(sm.h:53-68), the map lookups made while filling the tables, and that deferred
events have a table (`dispatchTables[event]`, fill_dispatch_table.h:246). -/
def accepts : Bool :=
  M.isComposite M.root
    && !M.flat.isEmpty
    && decide (M.maxInit ≠ 0)
    && (M.initials M.root).all (fun s => !M.isComposite s)
    && (M.initials M.root).all (fun s => (M.decl s).itable.isNone)
    && M.flat.all M.rowCompiles
    && M.iflat.all M.rowCompiles
    && M.deferringRows.all (fun t =>
        ((M.deferOf (stripInitial t.source)).getD []).all fun e => decide (e ∈ M.eventIds))

end Machine
end Hsm
