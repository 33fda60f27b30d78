import Verif.InterpGen
import Verif.InterpR

/-!
# A reference interpreter for the amalgamated header and callbacks that use the machine

As InterpGen.lean, for callbacks that are programs (`Prog`).  Callbacks, moves, the candidates one after
the other and the handler are those of InterpR.lean.  Nothing is returned for an event, and there is no
`set`.

This file is specification.  PropsInterpGenR.lean proves that the model of the code does the same (C97).
-/

namespace Hsm

namespace Machine
variable {P W : Type} (M : Machine) (sem : SemR P W)

section
variable (call : Op P → Conf P W → Res (Conf P W) Bool)

/-- One region and an event. -/
def visitGR (anon : Bool) (r : Nat) (ev : EventTy) (p : P) (c : Conf P W) :
    Res (Conf P W) (RegionOut × P) :=
  (seek r c).bind fun l c =>
    if l.1 ∈ M.composites then
      if M.candsG ev l.1 l.2 = [] then .ok (.none, p) c
      else M.attemptR sem call anon r ev c.deps.length
        (c.deps.flatMap fun d => (M.candsG ev l.1 l.2).map fun cd => (d, cd)) p c
    else .ub .bounds

/-- The regions one after the other, until one defers the event. -/
def sweepGR (ev : EventTy) : List Nat → List RegionOut → P → Conf P W →
    Res (Conf P W) (List RegionOut × P)
  | [], os, p, c => .ok (os, p) c
  | r :: rs, os, p, c =>
    (M.visitGR sem call false r ev p c).bind fun o c =>
      if o.1 = .deferred then .ok (os ++ [.deferred], o.2) c
      else sweepGR ev rs (os ++ [o.1]) o.2 c

/-- The regions one after the other, until one has no anonymous rows; each region sees a new none
event.  The answer says whether another round is due. -/
def roundGR : List Nat → List RegionOut → Conf P W → Res (Conf P W) Bool
  | [], os, c => .ok (decide (.fired ∈ os)) c
  | r :: rs, os, c =>
    (M.visitGR sem call true r .none sem.nonePayload c).bind fun o c =>
      if o.1 = .none then .ok false c else roundGR rs (os ++ [o.1]) c

/-- Rounds of anonymous rows, at most `fuel`. -/
def settleGR : Nat → Conf P W → Res (Conf P W) Unit
  | 0, _ => .timeout
  | fuel + 1, c =>
    (M.roundGR sem call (M.taking c) [] c).bind fun a c => if a then settleGR fuel c else .ok () c

/-- An event is handed to all regions; if something fired, anonymous rows follow. -/
def handleGR (fuel : Nat) (ev : EventTy) (p : P) (c : Conf P W) :
    Res (Conf P W) (List RegionOut × P) :=
  (M.sweepGR sem call ev (M.taking c) [] p c).bind fun a c =>
    if .deferred ∉ a.1 ∧ .fired ∈ a.1 ∧ M.anonymous then
      (M.settleGR sem call fuel c).bind fun _ c => .ok a c
    else .ok a c

/-- The oldest deferred event is handled; what becomes of it is not reported. -/
def replayGR (fuel : Nat) (c : Conf P W) : Res (Conf P W) Unit :=
  match c.waiting with
  | [] => .ok () c
  | (ev, p) :: q =>
    if M.deferring then
      (M.handleGR sem call fuel ev p { c with waiting := q }).bind fun _ c => .ok () c
    else .ok () c

/-- An event.  If no region had any row at all, the handler is called; otherwise the oldest deferred
event follows, which may be this one. -/
def receiveGR (fuel : Nat) (ev : EventTy) (p : P) (c : Conf P W) : Res (Conf P W) Unit :=
  (M.handleGR sem call fuel ev p c).bind fun a c =>
    if ∀ o ∈ a.1, o = RegionOut.none then M.complainR sem call ev a.2 c else M.replayGR sem call fuel c

end

/-- One call, from the user or from a callback; calls are nested at most `n` deep.  `set` does not
exist. -/
def execGR (fuel : Nat) : Nat → Op P → Conf P W → Res (Conf P W) Bool
  | 0, _, _ => .timeout
  | n + 1, op, c =>
    match op with
    | .process ev p => (M.receiveGR sem (execGR fuel n) fuel ev p c).bind fun _ c => .ok true c
    | .set _ _ _ => .ok true c
    | .setDependency d => .ok true { c with deps := d :: c.deps }

/-- Calls one after the other, also after exceptions; `none` if one is undefined or does not end. -/
def execAllGR (fuel n : Nat) : List (Op P) → Conf P W → Option (Conf P W)
  | [], c => some c
  | op :: ops, c =>
    match M.execGR sem fuel n op c with
    | .ok _ c => execAllGR fuel n ops c
    | .throw _ c => execAllGR fuel n ops c
    | .ub _ => none
    | .timeout => none

end Machine
end Hsm
