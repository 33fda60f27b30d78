import Verif.Interp
import Verif.Gen

/-!
# A reference interpreter for the amalgamated header

What a machine does that was built with `gen/hsm.h`, in terms of its declarations, for all machines
that header accepts.  Configurations, guards, actions, moves and the handler are those of Interp.lean;
what differs are the internal rows in force, the payload of the none event, and when a deferred event
gets its turn.

This file is specification.  PropsInterpGen.lean proves that the model of the code does the same (C82).
-/

namespace Hsm

namespace Machine
variable {P W : Type} (M : Machine) (sem : Sem P W)

/-! ## Rows -/

/-- The internal rows in force: those of the composites, each in every state the rows of the composite
mention.  Internal rows of simple states are ignored; a row declared twice is there twice. -/
def intRowsG : List XRow :=
  M.states.flatMap fun
    | .st s =>
      if M.isComposite s then
        ((M.decl s).itable.getD []).flatMap fun i =>
          ((M.rows s).flatMap fun r => [r.source, r.target]).eraseDups.map fun c =>
            { parent := s, source := c, event := i.event, guard := i.guard, action := i.action,
              target := c, internal := true }
      else []
    | .ps _ _ => []

/-- The events the machine knows. -/
def eventsG : List EventTy := ((M.extRows ++ M.intRowsG).map (·.event)).eraseDups

/-- The candidates for event `e` at location `(p, s)`, in the order they are tried. -/
def candsG (e : EventTy) (p : Name) (s : StTy) : List Cand :=
  List.replicate ((M.extRows.map (M.deferCount e p s)).sum) Cand.defer
    ++ (M.extRows.reverse.filter (fun t => t.event = e)).flatMap (M.extCands p s)
    ++ (M.intRowsG.reverse.filter (fun t => t.event = e)).flatMap (intCands p s)

/-- What the compiler checks. -/
structure CompilesG : Prop where
  root : M.isComposite M.root = true
  rows : M.extRows ≠ []
  initial : ∃ p ∈ M.composites, M.declaredInitials p ≠ []
  ends : ∀ t ∈ M.extRows ++ M.intRowsG, (sourceLoc t.parent t.source).2 ∈ M.states ∧
    ∃ l, M.targetLoc t = some l ∧ l.2 ∈ M.states
  deferred : ∀ t ∈ M.extRows, ∀ e ∈ M.defers t.source, e ∈ M.eventsG

/-- As `Regular`, for the amalgamated header. -/
structure RegularG : Prop where
  compiles : M.CompilesG
  nesting : ∀ p r q, r ∈ M.rows p → M.Enters r.target q → M.rank q < M.rank p
  freshRoot : ∀ t ∈ M.extRows, plain t.source ≠ .st M.root ∧ t.target ≠ .st M.root
  fits : M.states.length * M.composites.length < 2 ^ 64

/-- The parents sources refer to are composites whose rows are in force. -/
def ScopesRealG : Prop :=
  (∀ t ∈ M.extRows ++ M.intRowsG, (sourceLoc t.parent t.source).1 ∈ M.composites) ∧
    (∀ t ∈ M.extRows, ∀ p, t.source = .st p → M.isComposite p = true → M.rows p ≠ [] →
      p ∈ M.composites)

/-! ## Events -/

/-- One region and an event. -/
def visitG (anon : Bool) (r : Nat) (ev : EventTy) (p : P) (c : Conf P W) :
    Res (Conf P W) (RegionOut × P) :=
  (seek r c).bind fun l c =>
    if l.1 ∈ M.composites then
      if M.candsG ev l.1 l.2 = [] then .ok (.none, p) c
      else M.attempt sem anon r ev
        (c.deps.flatMap fun d => (M.candsG ev l.1 l.2).map fun cd => (d, cd)) p c
    else .ub .bounds

/-- The regions one after the other, until one defers the event. -/
def sweepG (ev : EventTy) : List Nat → List RegionOut → P → Conf P W →
    Res (Conf P W) (List RegionOut × P)
  | [], os, p, c => .ok (os, p) c
  | r :: rs, os, p, c =>
    (M.visitG sem false r ev p c).bind fun o c =>
      if o.1 = .deferred then .ok (os ++ [.deferred], o.2) c
      else sweepG ev rs (os ++ [o.1]) o.2 c

/-- The regions one after the other, until one has no anonymous rows; each region sees a new none
event.  The answer says whether another round is due. -/
def roundG : List Nat → List RegionOut → Conf P W → Res (Conf P W) Bool
  | [], os, c => .ok (decide (.fired ∈ os)) c
  | r :: rs, os, c =>
    (M.visitG sem true r .none sem.nonePayload c).bind fun o c =>
      if o.1 = .none then .ok false c else roundG rs (os ++ [o.1]) c

/-- Rounds of anonymous rows, at most `fuel`. -/
def settleG : Nat → Conf P W → Res (Conf P W) Unit
  | 0, _ => .timeout
  | fuel + 1, c =>
    (M.roundG sem (M.taking c) [] c).bind fun a c => if a then settleG fuel c else .ok () c

/-- An event is handed to all regions; if something fired, anonymous rows follow. -/
def handleG (fuel : Nat) (ev : EventTy) (p : P) (c : Conf P W) :
    Res (Conf P W) (List RegionOut × P) :=
  (M.sweepG sem ev (M.taking c) [] p c).bind fun a c =>
    if .deferred ∉ a.1 ∧ .fired ∈ a.1 ∧ M.anonymous then
      (M.settleG sem fuel c).bind fun _ c => .ok a c
    else .ok a c

/-- The oldest deferred event is handled; what becomes of it is not reported. -/
def replayG (fuel : Nat) (c : Conf P W) : Res (Conf P W) Unit :=
  match c.waiting with
  | [] => .ok () c
  | (ev, p) :: q =>
    if M.deferring then
      (M.handleG sem fuel ev p { c with waiting := q }).bind fun _ c => .ok () c
    else .ok () c

/-- An event from the user.  If no region had any row at all, the handler is called; otherwise the
oldest deferred event follows, which may be this one. -/
def receiveG (fuel : Nat) (ev : EventTy) (p : P) (c : Conf P W) : Res (Conf P W) Unit :=
  (M.handleG sem fuel ev p c).bind fun a c =>
    if ∀ o ∈ a.1, o = RegionOut.none then M.complain sem ev a.2 c else M.replayG sem fuel c

/-- One call of the user. -/
def execG (fuel : Nat) : OpG P → Conf P W → Res (Conf P W) Unit
  | .process ev p, c => M.receiveG sem fuel ev p c
  | .setDependency d, c => .ok () { c with deps := d :: c.deps }

/-- Calls one after the other, also after exceptions; `none` if one is undefined or does not end. -/
def execAllG (fuel : Nat) : List (OpG P) → Conf P W → Option (Conf P W)
  | [], c => some c
  | op :: ops, c =>
    match M.execG sem fuel op c with
    | .ok _ c => execAllG fuel ops c
    | .throw _ c => execAllG fuel ops c
    | .ub _ => none
    | .timeout => none

end Machine

variable {P W : Type}

/-- The calls `ops` one after the other, also after exceptions; `none` if one is undefined or does
not end. -/
def runAllG (f : OpG P → SM P W → Res (SM P W) Unit) : List (OpG P) → SM P W → Option (SM P W)
  | [], s => some s
  | op :: ops, s =>
    match f op s with
    | .ok _ s => runAllG f ops s
    | .throw _ s => runAllG f ops s
    | .ub _ => none
    | .timeout => none

end Hsm
