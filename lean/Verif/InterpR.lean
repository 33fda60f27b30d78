import Verif.Interp
import Verif.Reentrant

/-!
# A reference interpreter for callbacks that use the machine

As Interp.lean, for callbacks that are programs (`Prog`): a callback may send events to the machine that
runs it, set a state or hand over a dependency, look at the reply and go on.  Such a call is
interpreted on the spot, in the middle of the one that is being handled.  What the outer call has read
before stays as it was read: the location of the region it is dealing with, the candidates there, and
how many regions take part.

This file is specification.  PropsInterpR.lean proves that the model of the code does the same (C83).
-/

namespace Hsm

namespace Machine
variable {P W : Type} (M : Machine) (sem : SemR P W)

section
variable (call : Op P → Conf P W → Res (Conf P W) Bool)

/-! ## Callbacks -/

/-- A callback runs; `call` is what the machine does when it is called from inside. -/
def enact {α : Type} : Prog P W α → Conf P W → Res (Conf P W) (α × P)
  | .ret a p w, c => .ok (a, p) { c with world := w }
  | .throw x w, c => .throw x { c with world := w }
  | .ub, _ => .ub .callback
  | .call op w k, c =>
    match call op { c with world := w } with
    | .ok b c => enact (k (.ret b) c.world) c
    | .throw x c => enact (k (.threw x) c.world) c
    | .ub u => .ub u
    | .timeout => .timeout

/-- A callback runs and is noted down when it is over. -/
def enactNoted {α : Type} (pr : Prog P W α) (note : Option α → Call P) (c : Conf P W) :
    Res (Conf P W) (α × P) :=
  match enact call pr c with
  | .ok a c => .ok a { c with calls := c.calls ++ [note (some a.1)] }
  | .throw x c => .throw x { c with calls := c.calls ++ [note none] }
  | .ub u => .ub u
  | .timeout => .timeout

/-- There is an object for state `st`. -/
def presentR (st : StTy) (c : Conf P W) : Bool := M.selfMade st || sem.alive st c.world

/-- The guard of row `t` is asked; rows without guard always agree. -/
def askR (ev : EventTy) (d : Dep) (cd : Cand) (t : XRow) (l : Name × StTy) (p : P) (c : Conf P W) :
    Res (Conf P W) (Bool × P) :=
  match t.guard with
  | none => .ok (true, p) c
  | some g =>
    let args : Args := ⟨ev, cd.src, if t.internal then cd.src else l.2, false, d⟩
    if M.presentR sem args.src c && M.presentR sem args.dst c then
      enactNoted call (sem.guard g args p c.world) (fun b => .guard g args p b []) c
    else .ub .nullObject

/-- Callbacks one after the other. -/
def performR (args : Args) : List (Phase × Cb) → P → Conf P W → Res (Conf P W) P
  | [], p, c => .ok p c
  | (ph, a) :: as, p, c =>
    (enactNoted call (sem.action a args p c.world) (fun u => .action ph a args p u.isNone []) c).bind
      fun u c => performR args as u.2 c

/-- Row `t` fires: first the region moves, then the callbacks run. -/
def takeR (r : Nat) (ev : EventTy) (d : Dep) (cd : Cand) (t : XRow) (l : Name × StTy) (p : P)
    (c : Conf P W) : Res (Conf P W) P :=
  (M.travel r t l c).bind fun _ c =>
    match M.toRun t with
    | none => .ok p c
    | some cs =>
      if M.presentR sem cd.src c then performR sem call (cbArgs M cd t l ev d) cs p c
      else .ub .nullObject

/-! ## Events -/

/-- The candidates are tried in order.  There were `k` dependencies when they were read; if a guard says
no after it had another one added, the library goes on with iterators that are no longer valid. -/
def attemptR (anon : Bool) (r : Nat) (ev : EventTy) (k : Nat) :
    List (Dep × Cand) → P → Conf P W → Res (Conf P W) (RegionOut × P)
  | [], p, c => .ok (.rejected, p) c
  | (d, cd) :: cs, p, c =>
    match cd.row? with
    | none =>
      if anon then .ub .nullTransition
      else .ok (.deferred, p) { c with waiting := c.waiting ++ [(ev, p)] }
    | some t =>
      match M.targetLoc t with
      | none => .ub .nullTransition
      | some l =>
        (M.askR sem call ev d cd t l p c).bind fun a c =>
          if a.1 then (M.takeR sem call r ev d cd t l a.2 c).bind fun p c => .ok (.fired, p) c
          else if c.deps.length = k then attemptR anon r ev k cs a.2 c
          else .ub .iterator

/-- One region and an event. -/
def visitR (anon : Bool) (r : Nat) (ev : EventTy) (p : P) (c : Conf P W) :
    Res (Conf P W) (RegionOut × P) :=
  (seek r c).bind fun l c =>
    if l.1 ∈ M.composites then
      if M.cands ev l.1 l.2 = [] then .ok (.none, p) c
      else M.attemptR sem call anon r ev c.deps.length
        (c.deps.flatMap fun d => (M.cands ev l.1 l.2).map fun cd => (d, cd)) p c
    else .ub .bounds

/-- The regions one after the other, until one defers the event. -/
def sweepR (ev : EventTy) : List Nat → List RegionOut → P → Conf P W →
    Res (Conf P W) (List RegionOut × P)
  | [], os, p, c => .ok (os, p) c
  | r :: rs, os, p, c =>
    (M.visitR sem call false r ev p c).bind fun o c =>
      if o.1 = .deferred then .ok (os ++ [.deferred], o.2) c
      else sweepR ev rs (os ++ [o.1]) o.2 c

/-- The regions one after the other, until one has no anonymous rows.  The answer says whether
another round is due. -/
def roundR : List Nat → List RegionOut → P → Conf P W → Res (Conf P W) (Bool × P)
  | [], os, p, c => .ok (decide (.fired ∈ os), p) c
  | r :: rs, os, p, c =>
    (M.visitR sem call true r .none p c).bind fun o c =>
      if o.1 = .none then .ok (false, o.2) c else roundR rs (os ++ [o.1]) o.2 c

/-- Rounds of anonymous rows, at most `fuel`. -/
def settleR : Nat → P → Conf P W → Res (Conf P W) Unit
  | 0, _, _ => .timeout
  | fuel + 1, p, c =>
    (M.roundR sem call (M.taking c) [] p c).bind fun a c =>
      if a.1 then settleR fuel a.2 c else .ok () c

/-- An event is handed to all regions; if something fired, anonymous rows follow. -/
def handleR (fuel : Nat) (ev : EventTy) (p : P) (c : Conf P W) :
    Res (Conf P W) (List RegionOut × P) :=
  (M.sweepR sem call ev (M.taking c) [] p c).bind fun a c =>
    if .deferred ∉ a.1 ∧ .fired ∈ a.1 ∧ M.anonymous then
      (M.settleR sem call fuel sem.nonePayload c).bind fun _ c => .ok a c
    else .ok a c

/-- The unexpected-event handler, if there is one. -/
def complainR (ev : EventTy) (p : P) (c : Conf P W) : Res (Conf P W) Unit :=
  match (M.decl M.root).handler with
  | none => .ok () c
  | some h =>
    (seek 0 c).bind fun l c =>
      if l.1 ∈ M.composites then
        if M.presentR sem l.2 c then
          (enactNoted call (sem.handler h ev l.2 c.first p c.world)
            (fun u => .handler h ev l.2 c.first p u.isNone []) c).bind fun _ c => .ok () c
        else .ub .nullObject
      else .throw .outOfRange c

/-- The oldest deferred event is handled; what becomes of it is not reported. -/
def replayR (fuel : Nat) (c : Conf P W) : Res (Conf P W) Unit :=
  match c.waiting with
  | [] => .ok () c
  | (ev, p) :: q =>
    if M.deferring then
      (M.handleR sem call fuel ev p { c with waiting := q }).bind fun _ c => .ok () c
    else .ok () c

/-- An event. -/
def receiveR (fuel : Nat) (ev : EventTy) (p : P) (c : Conf P W) : Res (Conf P W) Bool :=
  (M.handleR sem call fuel ev p c).bind fun a c =>
    if .deferred ∈ a.1 then .ok false c
    else if .fired ∈ a.1 then (M.replayR sem call fuel c).bind fun _ c => .ok true c
    else if .rejected ∈ a.1 then .ok false c
    else (M.complainR sem call ev a.2 c).bind fun _ c => .ok false c

end

/-- One call, from the user or from a callback; calls are nested at most `n` deep. -/
def execR (fuel : Nat) : Nat → Op P → Conf P W → Res (Conf P W) Bool
  | 0, _, _ => .timeout
  | n + 1, op, c =>
    match op with
    | .process ev p => M.receiveR sem (execR fuel n) fuel ev p c
    | .set r p st =>
      if r % 256 < c.slots.length then .ok true { c with slots := c.slots.set (r % 256) (some (p, st)) }
      else .throw .outOfRange c
    | .setDependency d => .ok true { c with deps := d :: c.deps }

/-- Calls one after the other, also after exceptions; `none` if one is undefined or does not end. -/
def execAllR (fuel n : Nat) : List (Op P) → Conf P W → Option (Conf P W)
  | [], c => some c
  | op :: ops, c =>
    match M.execR sem fuel n op c with
    | .ok _ c => execAllR fuel n ops c
    | .throw _ c => execAllR fuel n ops c
    | .ub _ => none
    | .timeout => none

end Machine
end Hsm
