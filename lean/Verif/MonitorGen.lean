import Verif.Monitor
import Verif.CheckerGen

/-!
# Rules about what clients of the amalgamated header observe: a checker

As Monitor.lean, for `gen/hsm.h`: the rows in force are those of InterpGen.lean, and the oldest deferred
event is handled after every event for which some region had a row.  `process_event` returns nothing
there; the sign `answer true` stands for its return.

This file is specification.  PropsMonitorGen.lean proves that the model of the code agrees (C104).
-/

namespace Hsm

variable {Q : Type}

/-- What a client observes that only sends events, to a machine of `gen/hsm.h`. -/
inductive ObservedG {P W : Type} (M : Machine) (sem : Sem P W) (d : Dep) : List Sign → SM P W → Prop
  | init {w : W} {s : SM P W} (h : constructG M d w = .ok s) : ObservedG M sem d [] s
  | ok {s s' : SM P W} {ss : List Sign} {ev : EventTy} {p : P} {fuel : Nat}
      (hr : ObservedG M sem d ss s) (hop : OpOkG M (.process ev p))
      (h : stepG M sem fuel (.process ev p) s = .ok () s') :
      ObservedG M sem d (ss ++ .event ev :: callsSince s s' ++ [.answer true]) s'
  | throw {s s' : SM P W} {ss : List Sign} {ev : EventTy} {p : P} {fuel : Nat} {x : Exn}
      (hr : ObservedG M sem d ss s) (hop : OpOkG M (.process ev p))
      (h : stepG M sem fuel (.process ev p) s = .throw x s') :
      ObservedG M sem d (ss ++ .event ev :: callsSince s s' ++ [.exception]) s'
  | world {s : SM P W} {ss : List Sign} (hr : ObservedG M sem d ss s) (w : W) :
      ObservedG M sem d ss { s with world := w }

namespace Machine
variable (M : Machine) (mon : Monitor Q)

/-- One region and an event. -/
def seeVisitG (anon : Bool) (r : Nat) (ev : EventTy) (x : Eye Q) : List (Res (Eye Q) RegionOut) :=
  match x.spot.slots[r]? with
  | none => [.ub .bounds]
  | some none => [.ub .uninit]
  | some (some l) =>
    if l.1 ∈ M.composites then
      if M.candsG ev l.1 l.2 = [] then [.ok .none x] else M.seeAttempt mon anon r ev (M.candsG ev l.1 l.2) x
    else [.ub .bounds]

/-- The regions one after the other, until one defers the event. -/
def seeSweepG (ev : EventTy) : List Nat → List RegionOut → Eye Q → List (Res (Eye Q) (List RegionOut))
  | [], os, x => [.ok os x]
  | r :: rs, os, x =>
    branch (M.seeVisitG mon false r ev x) fun o x =>
      if o = .deferred then [.ok (os ++ [.deferred]) x] else seeSweepG ev rs (os ++ [o]) x

/-- A round of anonymous rows; the answer says whether another one is due. -/
def seeRoundG : List Nat → List RegionOut → Eye Q → List (Res (Eye Q) Bool)
  | [], os, x => [.ok (decide (.fired ∈ os)) x]
  | r :: rs, os, x =>
    branch (M.seeVisitG mon true r .none x) fun o x =>
      if o = .none then [.ok false x] else seeRoundG rs (os ++ [o]) x

/-- The oldest deferred event is handled. -/
def seeReplayG (x : Eye Q) : List (Res (Eye Q) Stage) :=
  match x.waiting with
  | [] => seeAnswer mon true x
  | ev :: q =>
    if M.deferring then
      branch (M.seeSweepG mon ev (M.involved x.spot) [] { x with waiting := q }) fun os x =>
        if .deferred ∉ os ∧ .fired ∈ os ∧ M.anonymous then [.ok (.rounds false) x] else seeAnswer mon true x
    else seeAnswer mon true x

/-- An event from the client. -/
def seeReceiveG (ev : EventTy) (x : Eye Q) : List (Res (Eye Q) Stage) :=
  branch (M.seeSweepG mon ev (M.involved x.spot) [] x) fun os x =>
    if .deferred ∉ os ∧ .fired ∈ os ∧ M.anonymous then [.ok (.rounds true) x]
    else if ∀ o ∈ os, o = .none then branch (M.seeComplain mon ev x) fun _ x => seeAnswer mon true x
    else M.seeReplayG mon x

/-- One step: between two calls any event may be sent, in the middle of a call a round of anonymous rows
is next. -/
def seeNextG : Stage → Eye Q → List (Res (Eye Q) Stage)
  | .idle, x => M.eventsG.flatMap fun ev => M.seeReceiveG mon ev (seeSign mon (.event ev) x)
  | .rounds first, x =>
    branch (M.seeRoundG mon (M.involved x.spot) [] x) fun more x =>
      if more then [.ok (.rounds first) x] else if first then M.seeReplayG mon x else seeAnswer mon true x

/-- What may be the case while some client uses the machine. -/
inductive SeesG : Stage → Eye Q → Prop
  | start : SeesG .idle (M.seeStart mon)
  | ok {g g' : Stage} {x x' : Eye Q} (h : SeesG g x) (hn : .ok g' x' ∈ M.seeNextG mon g x) : SeesG g' x'
  | throw {g : Stage} {x x' : Eye Q} {e : Exn} (h : SeesG g x) (hn : .throw e x' ∈ M.seeNextG mon g x) :
      SeesG .idle (seeSign mon .exception x')

variable [DecidableEq Q]

/-- The list `S` leaves out nothing. -/
def seesAllG (S : List (Stage × Eye Q)) : Bool :=
  decide ((Stage.idle, M.seeStart mon) ∈ S) && S.all fun s => (M.seeNextG mon s.1 s.2).all fun
    | .ok g x => decide ((g, x) ∈ S)
    | .throw _ x => decide ((Stage.idle, seeSign mon .exception x) ∈ S)
    | _ => true

/-- What may be the case within `k` steps. -/
def watchG : Nat → List (Stage × Eye Q)
  | 0 => [(.idle, M.seeStart mon)]
  | k + 1 => (watchG k ++ (watchG k).flatMap fun s => (M.seeNextG mon s.1 s.2).filterMap fun
    | .ok g x => some (g, x)
    | .throw _ x => some (.idle, seeSign mon .exception x)
    | _ => none).eraseDups

end Machine
end Hsm
