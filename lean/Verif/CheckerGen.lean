import Verif.Checker
import Verif.InterpGen

/-!
# What a machine of the amalgamated header may do: a checker

As Checker.lean, for `gen/hsm.h`: the rows in force and the events are those of InterpGen.lean.  Which
event is handled next is left open there already, so a deferred event may be handled at any time.

This file is specification.  PropsCheckerGen.lean proves that the model of the code agrees (C103).
-/

namespace Hsm

namespace Machine
variable (M : Machine)

/-- One region and an event. -/
def mayVisitG (anon : Bool) (r : Nat) (ev : EventTy) (n : Spot) : List (Res Spot RegionOut) :=
  match n.slots[r]? with
  | none => [.ub .bounds]
  | some none => [.ub .uninit]
  | some (some l) =>
    if l.1 ∈ M.composites then
      if M.candsG ev l.1 l.2 = [] then [.ok .none n] else M.mayAttempt anon r (M.candsG ev l.1 l.2) n
    else [.ub .bounds]

/-- The regions one after the other, until one defers the event. -/
def maySweepG (ev : EventTy) : List Nat → List RegionOut → Spot → List (Res Spot (List RegionOut))
  | [], os, n => [.ok os n]
  | r :: rs, os, n =>
    branch (M.mayVisitG false r ev n) fun o n =>
      if o = .deferred then [.ok (os ++ [.deferred]) n] else maySweepG ev rs (os ++ [o]) n

/-- A round of anonymous rows; the answer says whether another one is due. -/
def mayRoundG : List Nat → List RegionOut → Spot → List (Res Spot Bool)
  | [], os, n => [.ok (decide (.fired ∈ os)) n]
  | r :: rs, os, n =>
    branch (M.mayVisitG true r .none n) fun o n =>
      if o = .none then [.ok false n] else mayRoundG rs (os ++ [o]) n

/-- What an event may do.  The answer says whether rounds of anonymous rows follow. -/
def mayReceiveG (ev : EventTy) (n : Spot) : List (Res Spot Bool) :=
  branch (M.maySweepG ev (M.involved n) [] n) fun os n =>
    if .deferred ∈ os then [.ok false n]
    else if .fired ∈ os then [.ok M.anonymous n]
    else if .rejected ∈ os then [.ok false n]
    else branch (M.mayComplain n) fun _ n => [.ok false n]

/-- One step from spot `n`: between two calls any event may arrive, in the middle of a call (`true`) a
round of anonymous rows is next. -/
def nextG : Bool → Spot → List (Res Spot Bool)
  | false, n => M.eventsG.flatMap fun ev => M.mayReceiveG ev n
  | true, n => M.mayRoundG (M.involved n) [] n

/-- The spots a machine may come to; `true` in the middle of a call. -/
inductive WalkG : Bool → Spot → Prop
  | start : WalkG false M.start
  | ok {b b' : Bool} {n n' : Spot} (h : WalkG b n) (hn : .ok b' n' ∈ M.nextG b n) : WalkG b' n'
  | throw {b : Bool} {n n' : Spot} {x : Exn} (h : WalkG b n) (hn : .throw x n' ∈ M.nextG b n) :
      WalkG false n'

/-- The list `S` leaves out no spot. -/
def closedG (S : List (Bool × Spot)) : Bool :=
  decide ((false, M.start) ∈ S) && S.all fun s => (M.nextG s.1 s.2).all fun
    | .ok b n => decide ((b, n) ∈ S)
    | .throw _ n => decide ((false, n) ∈ S)
    | .ub _ => true
    | .timeout => true

/-- Nothing undefined can happen at the spots of `S`. -/
def safeG (S : List (Bool × Spot)) : Bool :=
  S.all fun s => (M.nextG s.1 s.2).all fun
    | .ub _ => false
    | _ => true

/-- In the middle of a call at spot `n`: whatever the callbacks do, at most `k` rounds of anonymous rows
follow. -/
def withinG : Nat → Spot → Bool
  | 0, _ => false
  | k + 1, n => (M.nextG true n).all fun
    | .ok true n' => withinG k n'
    | _ => true

/-- Rounds of anonymous rows can go on for ever at spot `n`. -/
def SpinsG (n : Spot) : Prop := ∃ f : Nat → Spot, f 0 = n ∧ ∀ i, .ok true (f (i + 1)) ∈ M.nextG true (f i)

/-- No call started at the spots of `S` takes more than `k` rounds of anonymous rows in a row. -/
def calmG (k : Nat) (S : List (Bool × Spot)) : Bool := S.all fun s => !s.1 || M.withinG k s.2

/-- The spots of `S`, and those one step further. -/
def growG (S : List (Bool × Spot)) : List (Bool × Spot) :=
  (S ++ S.flatMap fun s => (M.nextG s.1 s.2).filterMap fun
    | .ok b n => some (b, n)
    | .throw _ n => some (false, n)
    | .ub _ => none
    | .timeout => none).eraseDups

/-- The spots within `k` steps. -/
def exploreG : Nat → List (Bool × Spot)
  | 0 => [(false, M.start)]
  | k + 1 => M.growG (exploreG k)

end Machine
end Hsm
