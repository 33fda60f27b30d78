import Verif.Runtime

/-!
# Specification vocabulary

Definitions used to state the properties.  They speak about declared rows, names
and locations; none of them is used by the model.
-/

namespace Hsm
namespace Machine
variable (M : Machine)

/-- The machine makes the object of this state itself: its class has a default constructor, as
those of all pseudo states do. -/
def selfMade : StTy → Bool
  | .st s => (M.decl s).defaultCtor
  | .ps _ (.entry _ _) => true
  | .ps _ (.exit _ _) => true
  | .ps _ (.direct _ _) => true
  | .ps _ (.history _) => true
  | .ps _ (.initial _) => true

/-- A target leads into composite `q`: it is `q` itself, or an entry, direct or history
pseudo state of `q`. -/
def Enters (t : StTy) (q : Name) : Prop :=
  M.isComposite q = true ∧
    (t = .st q ∨ ∃ o, (∃ s, t = .ps o (.entry q s)) ∨ (∃ s, t = .ps o (.direct q s)) ∨
      t = .ps o (.history q))

/-- `q` is `p` or a composite nested, at any depth, in `p`. -/
inductive Nested (p : Name) : Name → Prop
  | refl : Nested p p
  | sub {q q' : Name} {r : Row} (hq : Nested p q) (hr : r ∈ M.rows q)
      (he : M.Enters r.target q') : Nested p q'

/-- Composites whose rows are in force: the root, and every composite led into by a
row in force. -/
def InForce (p : Name) : Prop := M.Nested M.root p

/-- The composite a target leads into: itself, if it is one, or the composite of an entry,
direct or history pseudo state. -/
def leadsInto (t : StTy) : Option Name :=
  (match t with
    | .st s => some s
    | .ps _ (.entry q _) => some q
    | .ps _ (.direct q _) => some q
    | .ps _ (.history q) => some q
    | .ps _ (.initial _) => none
    | .ps _ (.exit _ _) => none).filter M.isComposite

/-- The rows of `p` as they are read: each row is followed by the rows of the composite it
leads into.  The first argument bounds the nesting. -/
def reading : Nat → Name → List XRow
  | 0, _ => []
  | n + 1, p =>
    ((M.rows p).map fun r =>
      ({ parent := p, source := r.source, event := r.event, guard := r.guard,
         action := r.action, target := r.target, internal := false } : XRow) ::
        (M.leadsInto r.target).elim [] (reading n)).flatten

/-- The external rows in force, in reading order. -/
def extRows : List XRow := M.reading (M.rank M.root + 1) M.root

/-- The state a source stands for: an initial marker is taken off. -/
def plain : StTy → StTy
  | .ps _ (.initial s) => .st s
  | .st s => .st s
  | .ps o (.exit q s) => .ps o (.exit q s)
  | .ps o (.entry q s) => .ps o (.entry q s)
  | .ps o (.direct q s) => .ps o (.direct q s)
  | .ps o (.history q) => .ps o (.history q)

/-- Where states occur: the root in itself, every other state in the composite whose row
mentions it; in reading order. -/
def places : List (Name × StTy) :=
  ((M.root, StTy.st M.root) ::
    M.extRows.flatMap fun t => [(t.parent, plain t.source), (t.parent, t.target)]).eraseDups

/-- The internal rows a state brings along at a place: those of a simple state apply in
this state, those of a composite in every state its rows mention. -/
def innerRows (x : Name × StTy) : List XRow :=
  match x.2 with
  | .st s =>
    ((M.decl s).itable.getD []).flatMap fun i =>
      (if M.isComposite s then
          ((M.rows s).flatMap fun r => [r.source, r.target]).eraseDups.map fun c => (s, c)
        else [(x.1, .st s)]).map fun y =>
        { parent := y.1, source := y.2, event := i.event, guard := i.guard,
          action := i.action, target := y.2, internal := true }
  | .ps _ _ => []

/-- The internal rows in force; the same row is not repeated. -/
def intRows : List XRow := (M.places.flatMap M.innerRows).eraseDups

/-- The events the machine knows. -/
def events : List EventTy := ((M.extRows ++ M.intRows).map (·.event)).eraseDups

/-- The composites whose rows are in force. -/
def composites : List Name := (M.extRows.map (·.parent)).eraseDups

/-- The states of the machine, the root last. -/
def states : List StTy :=
  (M.extRows.flatMap fun t => [plain t.source, t.target]).eraseDups ++ [.st M.root]

/-- The events a source defers. -/
def defers : StTy → List EventTy
  | .st s => (M.decl s).defer.getD []
  | .ps _ (.initial s) => (M.decl s).defer.getD []
  | _ => []

/-- The initial states declared by composite `p`, in the order of their first
occurrence in its rows. -/
def declaredInitials (p : Name) : List Name :=
  ((M.rows p).flatMap fun r => [r.source, r.target]).eraseDups.filterMap fun
    | .ps _ (.initial s) => some s
    | _ => none

/-- Some row in force is anonymous. -/
def anonymous : Bool := decide (∃ t ∈ M.extRows, t.event = .none)

/-- Some row in force leads to a history pseudo state. -/
def historic : Bool :=
  M.extRows.any fun t => match t.target with
    | .ps _ (.history _) => true
    | _ => false

/-- Some row in force starts in a state that declares deferred events. -/
def deferring : Bool :=
  M.extRows.any fun t => match t.source with
    | .st s => (M.decl s).defer.isSome
    | .ps _ (.initial s) => (M.decl s).defer.isSome
    | _ => false

/-- Some composite whose rows are in force has several initial states. -/
def orthogonal : Bool := decide (∃ p ∈ M.composites, 1 < (M.declaredInitials p).length)

/-- The location a source denotes when it occurs in a row of composite `p`. -/
def sourceLoc (p : Name) : StTy → Name × StTy
  | .st s => (p, .st s)
  | .ps _ (.initial s) => (p, .st s)
  | .ps _ (.exit q s) => (q, .st s)
  | .ps _ (.direct q s) => (q, .st s)
  | .ps o (.entry q s) => (p, .ps o (.entry q s))
  | .ps o (.history q) => (p, .ps o (.history q))

/-- A candidate for handling an event at a location. -/
inductive _root_.Hsm.Cand
  /-- the state defers the event -/
  | defer
  /-- a row whose source denotes the location -/
  | row (t : XRow)
  /-- a row whose source is the composite the location is a direct child of -/
  | exit (t : XRow) (composite : Name)
deriving DecidableEq, Repr

/-- `s` is a direct child of composite `p`: some row of `p` mentions it (as target or,
initial marker removed, as source). -/
def IsChild (p : Name) (s : StTy) : Prop :=
  ∃ r ∈ M.rows p, s = plain r.source ∨ s = r.target

instance (p : Name) (s : StTy) : Decidable (M.IsChild p s) := by
  unfold IsChild; infer_instance

/-- The candidates one external row contributes at location `(p, s)`. -/
def extCands (p : Name) (s : StTy) (t : XRow) : List Cand :=
  (if t.source = .st p ∧ M.isComposite p = true ∧ M.IsChild p s then [Cand.exit t p] else [])
    ++ (if sourceLoc t.parent t.source = (p, s) then [Cand.row t] else [])

/-- The candidates one internal row contributes at location `(p, s)`. -/
def intCands (p : Name) (s : StTy) (t : XRow) : List Cand :=
  if sourceLoc t.parent t.source = (p, s) then [Cand.row t] else []

/-- How many times the row's source state defers event `e` at `(p, s)`. -/
def deferCount (e : EventTy) (p : Name) (s : StTy) (t : XRow) : Nat :=
  if sourceLoc t.parent t.source = (p, s) then
    (M.defers t.source).count e
  else 0

/-- The candidates for event `e` at location `(p, s)`, in the order they are tried:
deferral first, then external rows from the last declared to the first, then internal
rows from the last declared to the first. -/
def cands (e : EventTy) (p : Name) (s : StTy) : List Cand :=
  List.replicate ((M.extRows.map (M.deferCount e p s)).sum) Cand.defer
    ++ (M.extRows.reverse.filter (fun t => t.event = e)).flatMap (M.extCands p s)
    ++ (M.intRows.reverse.filter (fun t => t.event = e)).flatMap (intCands p s)

/-- The location a row leads to when it is not a history row: `none` if the row leads
into a composite without initial state. -/
def targetLoc (t : XRow) : Option (Name × StTy) :=
  match t.target with
  | .st s =>
    if M.isComposite s then (M.declaredInitials s).head?.map fun i => (s, .st i)
    else some (t.parent, .st s)
  | .ps _ (.entry p s) => some (p, .st s)
  | .ps _ (.direct p s) => some (p, .st s)
  | .ps _ (.history p) => (M.declaredInitials p).head?.map fun i => (p, .st i)
  | .ps _ (.initial s) => some (t.parent, .st s)
  | .ps o (.exit p s) => some (t.parent, .ps o (.exit p s))

/-- What the compiler checks: the root has a table; there are rows; some composite has an
initial state; the initial states of the root are simple and have no internal rows; every
row leads somewhere and starts and ends in states of the machine; deferred events are
events of the machine. -/
structure Compiles : Prop where
  root : M.isComposite M.root = true
  rows : M.extRows ≠ []
  initial : ∃ p ∈ M.composites, M.declaredInitials p ≠ []
  simple : ∀ i ∈ M.declaredInitials M.root, M.isComposite i = false ∧ (M.decl i).itable = none
  ends : ∀ t ∈ M.extRows ++ M.intRows, (sourceLoc t.parent t.source).2 ∈ M.states ∧
    ∃ l, M.targetLoc t = some l ∧ l.2 ∈ M.states
  deferred : ∀ t ∈ M.extRows, ∀ e ∈ M.defers t.source, e ∈ M.events

/-- Side conditions that every C++ program with a root state not used inside its own
machine, of realistic size, and with finite nesting satisfies. -/
structure Regular : Prop where
  compiles : M.Compiles
  nesting : ∀ p r q, r ∈ M.rows p → M.Enters r.target q → M.rank q < M.rank p
  freshRoot : ∀ t ∈ M.extRows, plain t.source ≠ .st M.root ∧ t.target ≠ .st M.root
  fits : M.states.length * M.composites.length < 2 ^ 64

/-- A target is a history pseudo state. -/
def toHistory : StTy → Bool
  | .ps _ (.history _) => true
  | _ => false

/-- `on_exit` of what a row leaves: its plain source, or the composite of its exit
point. -/
def exitCb (t : XRow) : Option Cb :=
  match t.source with
  | .st s => (M.decl s).onExit
  | .ps _ (.exit p _) => (M.decl p).onExit
  | _ => none

/-- `on_entry` of the plain target of a row. -/
def entryCb (t : XRow) : Option Cb :=
  match t.target with
  | .st s => (M.decl s).onEntry
  | _ => none

/-- `on_entry` of the first initial state of the composite that is the plain target of a
row. -/
def initEntryCb (t : XRow) : Option Cb :=
  match t.target with
  | .st s =>
    if M.isComposite s then (M.declaredInitials s).head?.bind fun i => (M.decl i).onEntry
    else none
  | _ => none

/-- The callbacks of a row in the order they are to be run. -/
def callbacks (t : XRow) : List (Phase × Cb) :=
  (if t.internal then none else M.exitCb t).toList.map (Phase.exit, ·)
    ++ t.action.toList.map (Phase.action, ·)
    ++ (if t.internal then none else M.entryCb t).toList.map (Phase.entry, ·)
    ++ (M.initEntryCb t).toList.map (Phase.initEntry, ·)

/-- What an entry for a row is to run.  A row without any callback of its own or of the
states it touches has no action at all; an internal row in a state with `on_entry` has an
empty one. -/
def toRun (t : XRow) : Option (List (Phase × Cb)) :=
  if t.action = none ∧ M.exitCb t = none ∧ M.entryCb t = none ∧ M.initEntryCb t = none then none
  else some (M.callbacks t)

/-- The table entry a candidate stands for, when built with dependency `dep`. -/
def entryOfCand (dep : Dep) : Cand → Option Entry
  | .defer => some { to := 0, history := false, defer := true, internal := false, tr := none }
  | .row t =>
    (M.targetLoc t).map fun d =>
      { to := M.comb d.1 d.2, history := toHistory t.target, defer := false,
        internal := t.internal,
        tr := some { internal := t.internal, action := M.toRun t, guard := t.guard,
                     src := (sourceLoc t.parent t.source).2, dst := d.2, dep := dep } }
  | .exit t p =>
    (M.targetLoc t).map fun d =>
      { to := M.comb d.1 d.2, history := toHistory t.target, defer := false,
        internal := t.internal,
        tr := some { internal := t.internal, action := M.toRun t, guard := t.guard,
                     src := .st p, dst := d.2, dep := dep } }

/-- The entries consulted for event `e` at `(p, s)` in a machine whose tables were
filled with the given dependencies, latest first. -/
def entries (deps : List Dep) (e : EventTy) (p : Name) (s : StTy) : List Entry :=
  deps.flatMap fun d => (M.cands e p s).filterMap (M.entryOfCand d)

/-- Scopes are real: the parents named by sources and the composites used as sources
are composites whose rows are in force, and so are the parents named by targets. -/
structure Scoped : Prop where
  sources : ∀ t ∈ M.extRows ++ M.intRows, (sourceLoc t.parent t.source).1 ∈ M.composites
  leaves : ∀ t ∈ M.extRows, ∀ p, t.source = .st p → M.isComposite p = true → M.rows p ≠ [] →
    p ∈ M.composites
  targets : ∀ t ∈ M.extRows ++ M.intRows, ∀ d, M.targetLoc t = some d → d.1 ∈ M.composites
  rootInit : M.declaredInitials M.root ≠ []

end Machine
end Hsm
