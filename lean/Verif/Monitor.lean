import Verif.Checker
import Verif.SpecRun

/-!
# Rules about what clients observe: a checker

A monitor listens to what a client of a machine observes: the events it sends, the callbacks that are
called, and the answers of `process_event`.  It ends with a verdict on what it heard.  Here all clients
are followed at once, as in Checker.lean, while the monitor listens: a list of what may be the case can
be checked by evaluation.  Other than there the deferred events that wait are part of it.

This file is specification.  PropsMonitor.lean proves that the model of the code agrees (C86).
-/

namespace Hsm

/-- The call without payload and dependency. -/
def Call.plain {P : Type} : Call P → Call Unit
  | .guard g a _ res _ => .guard g { a with dep := 0 } () res []
  | .action ph f a _ threw _ => .action ph f { a with dep := 0 } () threw []
  | .handler h e st _ _ threw _ => .handler h e st 0 () threw []

/-- What a client observes. -/
inductive Sign
  /-- it sends an event -/
  | event (e : EventTy)
  /-- one of its callbacks is called -/
  | call (k : Call Unit)
  /-- `process_event` returns -/
  | answer (b : Bool)
  /-- `process_event` throws -/
  | exception
deriving DecidableEq

/-- A monitor; `none`: a rule was broken. -/
structure Monitor (Q : Type) where
  init : Q
  step : Q → Sign → Option Q

variable {Q : Type}

/-- The monitor hears one sign. -/
def Monitor.hear (mon : Monitor Q) (q : Option Q) (s : Sign) : Option Q := q.bind fun q => mon.step q s

/-- The monitor hears signs one after the other. -/
def Monitor.hearAll (mon : Monitor Q) (q : Option Q) (ss : List Sign) : Option Q := ss.foldl mon.hear q

/-- The rules are kept. -/
def Monitor.Keeps (mon : Monitor Q) (ss : List Sign) : Prop := mon.hearAll (some mon.init) ss ≠ none

/-- The calls between two points of a history. -/
def callsSince {P W : Type} (s s' : SM P W) : List Sign :=
  (s'.trace.drop s.trace.length).map fun k => .call k.plain

/-- What a client that only sends events observes. -/
inductive Observed {P W : Type} (M : Machine) (sem : Sem P W) (d : Dep) : List Sign → SM P W → Prop
  | init {w : W} {s : SM P W} (h : construct M d w = .ok s) : Observed M sem d [] s
  | ok {s s' : SM P W} {ss : List Sign} {ev : EventTy} {p : P} {fuel : Nat} {b : Bool}
      (hr : Observed M sem d ss s) (hop : OpOk M (.process ev p))
      (h : step M sem fuel (.process ev p) s = .ok b s') :
      Observed M sem d (ss ++ .event ev :: callsSince s s' ++ [.answer b]) s'
  | throw {s s' : SM P W} {ss : List Sign} {ev : EventTy} {p : P} {fuel : Nat} {x : Exn}
      (hr : Observed M sem d ss s) (hop : OpOk M (.process ev p))
      (h : step M sem fuel (.process ev p) s = .throw x s') :
      Observed M sem d (ss ++ .event ev :: callsSince s s' ++ [.exception]) s'
  | world {s : SM P W} {ss : List Sign} (hr : Observed M sem d ss s) (w : W) :
      Observed M sem d ss { s with world := w }

/-- Where a machine is, which events wait, and what the monitor makes of it so far. -/
structure Eye (Q : Type) where
  spot : Spot
  waiting : List EventTy
  heard : Option Q
deriving DecidableEq

/-- Between two calls, or while rounds of anonymous rows run; `true` if a deferred event may follow. -/
inductive Stage
  | idle
  | rounds (first : Bool)
deriving DecidableEq

/-- Between two calls the rules are kept. -/
def keepsRules (S : List (Stage × Eye Q)) : Bool :=
  S.all fun s => match s.1 with
    | .idle => s.2.heard.isSome
    | .rounds _ => true

namespace Machine
variable (M : Machine) (mon : Monitor Q)

/-- The monitor hears a sign. -/
def seeSign (s : Sign) (x : Eye Q) : Eye Q := { x with heard := mon.hear x.heard s }

/-- Region `r` moves. -/
def seeTravel (r : Nat) (t : XRow) (l : Name × StTy) (x : Eye Q) : Res (Eye Q) Unit :=
  (M.mayTravel r t l x.spot).view fun n => { x with spot := n }

/-- A guard may throw, agree or refuse. -/
def seeAsk (ev : EventTy) (cd : Cand) (t : XRow) (l : Name × StTy) (x : Eye Q) : List (Res (Eye Q) Bool) :=
  match t.guard with
  | none => [.ok true x]
  | some g =>
    let args : Args := ⟨ev, cd.src, if t.internal then cd.src else l.2, false, 0⟩
    [.throw (.user 0) (seeSign mon (.call (.guard g args () none [])) x),
      .ok true (seeSign mon (.call (.guard g args () (some true) [])) x),
      .ok false (seeSign mon (.call (.guard g args () (some false) [])) x)]

/-- Callbacks one after the other, each may throw. -/
def seePerform (args : Args) : List (Phase × Cb) → Eye Q → List (Res (Eye Q) Unit)
  | [], x => [.ok () x]
  | (ph, a) :: cs, x =>
    .throw (.user 0) (seeSign mon (.call (.action ph a args () true [])) x) ::
      seePerform args cs (seeSign mon (.call (.action ph a args () false [])) x)

/-- Row `t` fires. -/
def seeTake (r : Nat) (ev : EventTy) (cd : Cand) (t : XRow) (l : Name × StTy) (x : Eye Q) :
    List (Res (Eye Q) Unit) :=
  branch [M.seeTravel r t l x] fun _ x =>
    match M.toRun t with
    | none => [.ok () x]
    | some cs => seePerform mon (cbArgs M cd t l ev 0) cs x

/-- The candidates are tried in order. -/
def seeAttempt (anon : Bool) (r : Nat) (ev : EventTy) : List Cand → Eye Q → List (Res (Eye Q) RegionOut)
  | [], x => [.ok .rejected x]
  | cd :: cs, x =>
    match cd.row? with
    | none => if anon then [.ub .nullTransition] else [.ok .deferred { x with waiting := x.waiting ++ [ev] }]
    | some t =>
      match M.targetLoc t with
      | none => [.ub .nullTransition]
      | some l =>
        branch (seeAsk mon ev cd t l x) fun b x =>
          if b then branch (M.seeTake mon r ev cd t l x) fun _ x => [.ok .fired x]
          else seeAttempt anon r ev cs x

/-- One region and an event. -/
def seeVisit (anon : Bool) (r : Nat) (ev : EventTy) (x : Eye Q) : List (Res (Eye Q) RegionOut) :=
  match x.spot.slots[r]? with
  | none => [.ub .bounds]
  | some none => [.ub .uninit]
  | some (some l) =>
    if l.1 ∈ M.composites then
      if M.cands ev l.1 l.2 = [] then [.ok .none x] else M.seeAttempt mon anon r ev (M.cands ev l.1 l.2) x
    else [.ub .bounds]

/-- The regions one after the other, until one defers the event. -/
def seeSweep (ev : EventTy) : List Nat → List RegionOut → Eye Q → List (Res (Eye Q) (List RegionOut))
  | [], os, x => [.ok os x]
  | r :: rs, os, x =>
    branch (M.seeVisit mon false r ev x) fun o x =>
      if o = .deferred then [.ok (os ++ [.deferred]) x] else seeSweep ev rs (os ++ [o]) x

/-- A round of anonymous rows; the answer says whether another one is due. -/
def seeRound : List Nat → List RegionOut → Eye Q → List (Res (Eye Q) Bool)
  | [], os, x => [.ok (decide (.fired ∈ os)) x]
  | r :: rs, os, x =>
    branch (M.seeVisit mon true r .none x) fun o x =>
      if o = .none then [.ok false x] else seeRound rs (os ++ [o]) x

/-- The unexpected-event handler. -/
def seeComplain (ev : EventTy) (x : Eye Q) : List (Res (Eye Q) Unit) :=
  match (M.decl M.root).handler with
  | none => [.ok () x]
  | some h =>
    match x.spot.slots[0]? with
    | none => [.ub .bounds]
    | some none => [.ub .uninit]
    | some (some l) =>
      if l.1 ∈ M.composites then
        [.ok () (seeSign mon (.call (.handler h ev l.2 0 () false [])) x),
          .throw (.user 0) (seeSign mon (.call (.handler h ev l.2 0 () true [])) x)]
      else [.throw .outOfRange x]

/-- `process_event` answers `b`. -/
def seeAnswer (b : Bool) (x : Eye Q) : List (Res (Eye Q) Stage) := [.ok .idle (seeSign mon (.answer b) x)]

/-- The oldest deferred event is handled. -/
def seeReplay (x : Eye Q) : List (Res (Eye Q) Stage) :=
  match x.waiting with
  | [] => seeAnswer mon true x
  | ev :: q =>
    if M.deferring then
      branch (M.seeSweep mon ev (M.involved x.spot) [] { x with waiting := q }) fun os x =>
        if .deferred ∉ os ∧ .fired ∈ os ∧ M.anonymous then [.ok (.rounds false) x] else seeAnswer mon true x
    else seeAnswer mon true x

/-- An event from the client. -/
def seeReceive (ev : EventTy) (x : Eye Q) : List (Res (Eye Q) Stage) :=
  branch (M.seeSweep mon ev (M.involved x.spot) [] x) fun os x =>
    if .deferred ∈ os then seeAnswer mon false x
    else if .fired ∈ os then (if M.anonymous then [.ok (.rounds true) x] else M.seeReplay mon x)
    else if .rejected ∈ os then seeAnswer mon false x
    else branch (M.seeComplain mon ev x) fun _ x => seeAnswer mon false x

/-- One step: between two calls any event may be sent, in the middle of a call a round of anonymous rows
is next. -/
def seeNext : Stage → Eye Q → List (Res (Eye Q) Stage)
  | .idle, x => M.events.flatMap fun ev => M.seeReceive mon ev (seeSign mon (.event ev) x)
  | .rounds first, x =>
    branch (M.seeRound mon (M.involved x.spot) [] x) fun more x =>
      if more then [.ok (.rounds first) x] else if first then M.seeReplay mon x else seeAnswer mon true x

/-- The beginning. -/
def seeStart : Eye Q := ⟨M.start, [], some mon.init⟩

/-- What may be the case while some client uses the machine. -/
inductive Sees : Stage → Eye Q → Prop
  | start : Sees .idle (M.seeStart mon)
  | ok {g g' : Stage} {x x' : Eye Q} (h : Sees g x) (hn : .ok g' x' ∈ M.seeNext mon g x) : Sees g' x'
  | throw {g : Stage} {x x' : Eye Q} {e : Exn} (h : Sees g x) (hn : .throw e x' ∈ M.seeNext mon g x) :
      Sees .idle (seeSign mon .exception x')

variable [DecidableEq Q]

/-- The list `S` leaves out nothing. -/
def seesAll (S : List (Stage × Eye Q)) : Bool :=
  decide ((Stage.idle, M.seeStart mon) ∈ S) && S.all fun s => (M.seeNext mon s.1 s.2).all fun
    | .ok g x => decide ((g, x) ∈ S)
    | .throw _ x => decide ((Stage.idle, seeSign mon .exception x) ∈ S)
    | _ => true

/-- What may be the case within `k` steps. -/
def watch : Nat → List (Stage × Eye Q)
  | 0 => [(.idle, M.seeStart mon)]
  | k + 1 => (watch k ++ (watch k).flatMap fun s => (M.seeNext mon s.1 s.2).filterMap fun
    | .ok g x => some (g, x)
    | .throw _ x => some (.idle, seeSign mon .exception x)
    | _ => none).eraseDups

end Machine
end Hsm
