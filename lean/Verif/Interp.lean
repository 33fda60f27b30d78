import Verif.SpecStep

/-!
# A reference interpreter for all of the language

What a machine does, in terms of its declarations: slots hold named locations, the rows tried at a
location are its candidates (Spec.lean), a composite remembers named locations, and the machine knows
with which dependencies its rows were bound.  There are no dispatch tables, no combined indices, no
map lookups and no divisions.  Undefined behaviour of the library is part of the description: slots
that were never written (`uninit`), names that are no composites in force where the library uses
unchecked indices (`bounds`), and so on.

This file is specification.  PropsInterp.lean proves that the model of the code does the same (C77).
-/

namespace Hsm

/-- Everything there is to know about a machine between two calls. -/
structure Conf (P W : Type) where
  /-- where each region is; `none` if nothing was ever written there -/
  slots : List (Option (Name × StTy))
  /-- what each composite remembers, by region -/
  memory : Name → List (Name × StTy)
  /-- deferred events, oldest first -/
  waiting : List (EventTy × P)
  /-- how many regions take part (if the machine has regions at all) -/
  active : Nat
  /-- the dependencies the rows are bound to, latest first -/
  deps : List Dep
  /-- the dependency the unexpected-event handler is bound to -/
  first : Dep
  world : W
  /-- the callbacks called so far, oldest first -/
  calls : List (Call P)

namespace Machine
variable {P W : Type} (M : Machine) (sem : Sem P W)

/-! ## Places -/

/-- Where region `r` is. -/
def seek (r : Nat) (c : Conf P W) : Res (Conf P W) (Name × StTy) :=
  match c.slots[r]? with
  | none => .ub .bounds
  | some none => .ub .uninit
  | some (some l) => .ok l c

/-- The regions that take part. -/
def taking (c : Conf P W) : List Nat := List.range (if M.orthogonal then c.active else 1)

/-- Region 0 says how many regions take part. -/
def recount (c : Conf P W) : Res (Conf P W) Unit :=
  if M.orthogonal then
    (seek 0 c).bind fun l c =>
      if l.1 ∈ M.composites then .ok () { c with active := (M.declaredInitials l.1).length }
      else .ub .bounds
  else .ok () c

/-- Region `r` goes to `l`. -/
def put (r : Nat) (l : Name × StTy) (c : Conf P W) : Res (Conf P W) Unit :=
  if r < c.slots.length then .ok () { c with slots := c.slots.set r (some l) } else .ub .bounds

/-- The composite region 0 is in remembers where region `r` is. -/
def remember (r : Nat) (c : Conf P W) : Res (Conf P W) Unit :=
  (seek 0 c).bind fun l0 c =>
    (seek r c).bind fun l c =>
      if l0.1 ∈ M.composites ∧ r < (c.memory l0.1).length then
        .ok () { c with memory := fun q => if q = l0.1 then (c.memory q).set r l else c.memory q }
      else .ub .bounds

/-- What composite `p` remembers for region `r`. -/
def recall (r : Nat) (p : Name) (c : Conf P W) : Res (Conf P W) (Name × StTy) :=
  if p ∈ M.composites then
    match (c.memory p)[r]? with
    | none => .ub .bounds
    | some l => .ok l c
  else .ub .bounds

/-- Region `r` moves along a row whose target is at `l`. -/
def travel (r : Nat) (t : XRow) (l : Name × StTy) (c : Conf P W) : Res (Conf P W) Unit :=
  if t.internal then .ok () c
  else if M.historic then
    (M.remember r c).bind fun _ c =>
      (if toHistory t.target then (M.recall r l.1 c).bind fun l c => put r l c
       else put r l c).bind fun _ c => M.recount c
  else (put r l c).bind fun _ c => M.recount c

/-! ## Callbacks -/

/-- There is an object for state `st`. -/
def present (st : StTy) (c : Conf P W) : Bool := M.selfMade st || sem.alive st c.world

/-- The guard of row `t` is asked; rows without guard always agree. -/
def ask (ev : EventTy) (d : Dep) (cd : Cand) (t : XRow) (l : Name × StTy) (p : P) (c : Conf P W) :
    Res (Conf P W) (Bool × P) :=
  match t.guard with
  | none => .ok (true, p) c
  | some g =>
    let args : Args := ⟨ev, cd.src, if t.internal then cd.src else l.2, false, d⟩
    if M.present sem args.src c && M.present sem args.dst c then
      match sem.guard g args p c.world with
      | .ok b p' w => .ok (b, p') { c with world := w, calls := c.calls ++ [.guard g args p (some b) []] }
      | .throw k _ w =>
        .throw (.user k) { c with world := w, calls := c.calls ++ [.guard g args p none []] }
      | .ub => .ub .callback
    else .ub .nullObject

/-- Callbacks one after the other. -/
def perform (args : Args) : List (Phase × Cb) → P → Conf P W → Res (Conf P W) P
  | [], p, c => .ok p c
  | (ph, a) :: as, p, c =>
    match sem.action a args p c.world with
    | .ok _ p' w =>
      perform args as p' { c with world := w, calls := c.calls ++ [.action ph a args p false []] }
    | .throw k _ w =>
      .throw (.user k) { c with world := w, calls := c.calls ++ [.action ph a args p true []] }
    | .ub => .ub .callback

/-- Row `t` fires: first the region moves, then the callbacks run. -/
def take (r : Nat) (ev : EventTy) (d : Dep) (cd : Cand) (t : XRow) (l : Name × StTy) (p : P)
    (c : Conf P W) : Res (Conf P W) P :=
  (M.travel r t l c).bind fun _ c =>
    match M.toRun t with
    | none => .ok p c
    | some cs =>
      if M.present sem cd.src c then perform sem (cbArgs M cd t l ev d) cs p c else .ub .nullObject

/-! ## Events -/

/-- The candidates are tried in order.  While anonymous rows are looked for, a deferral is an error in
the library. -/
def attempt (anon : Bool) (r : Nat) (ev : EventTy) :
    List (Dep × Cand) → P → Conf P W → Res (Conf P W) (RegionOut × P)
  | [], p, c => .ok (.rejected, p) c
  | (d, cd) :: cs, p, c =>
    match cd.row? with
    | none =>
      if anon then .ub .nullTransition
      else .ok (.deferred, p) { c with waiting := c.waiting ++ [(ev, p)] }
    | some t =>
      match M.targetLoc t with
      | none => .ub .nullTransition
      | some l =>
        (M.ask sem ev d cd t l p c).bind fun a c =>
          if a.1 then (M.take sem r ev d cd t l a.2 c).bind fun p c => .ok (.fired, p) c
          else attempt anon r ev cs a.2 c

/-- One region and an event.  All rows exist once for each dependency, those bound to the latest one
come first. -/
def visit (anon : Bool) (r : Nat) (ev : EventTy) (p : P) (c : Conf P W) :
    Res (Conf P W) (RegionOut × P) :=
  (seek r c).bind fun l c =>
    if l.1 ∈ M.composites then
      if M.cands ev l.1 l.2 = [] then .ok (.none, p) c
      else M.attempt sem anon r ev
        (c.deps.flatMap fun d => (M.cands ev l.1 l.2).map fun cd => (d, cd)) p c
    else .ub .bounds

/-- The regions one after the other, until one defers the event. -/
def sweep (ev : EventTy) : List Nat → List RegionOut → P → Conf P W →
    Res (Conf P W) (List RegionOut × P)
  | [], os, p, c => .ok (os, p) c
  | r :: rs, os, p, c =>
    (M.visit sem false r ev p c).bind fun o c =>
      if o.1 = .deferred then .ok (os ++ [.deferred], o.2) c
      else sweep ev rs (os ++ [o.1]) o.2 c

/-- The regions one after the other, until one has no anonymous rows.  The answer says whether
another round is due. -/
def round : List Nat → List RegionOut → P → Conf P W → Res (Conf P W) (Bool × P)
  | [], os, p, c => .ok (decide (.fired ∈ os), p) c
  | r :: rs, os, p, c =>
    (M.visit sem true r .none p c).bind fun o c =>
      if o.1 = .none then .ok (false, o.2) c else round rs (os ++ [o.1]) o.2 c

/-- Rounds of anonymous rows, at most `fuel`. -/
def settle : Nat → P → Conf P W → Res (Conf P W) Unit
  | 0, _, _ => .timeout
  | fuel + 1, p, c =>
    (M.round sem (M.taking c) [] p c).bind fun a c =>
      if a.1 then settle fuel a.2 c else .ok () c

/-- An event is handed to all regions; if something fired, anonymous rows follow.  The answer says
what became of the event in each region. -/
def handle (fuel : Nat) (ev : EventTy) (p : P) (c : Conf P W) :
    Res (Conf P W) (List RegionOut × P) :=
  (M.sweep sem ev (M.taking c) [] p c).bind fun a c =>
    if .deferred ∉ a.1 ∧ .fired ∈ a.1 ∧ M.anonymous then
      (M.settle sem fuel sem.nonePayload c).bind fun _ c => .ok a c
    else .ok a c

/-- The unexpected-event handler, if there is one. -/
def complain (ev : EventTy) (p : P) (c : Conf P W) : Res (Conf P W) Unit :=
  match (M.decl M.root).handler with
  | none => .ok () c
  | some h =>
    (seek 0 c).bind fun l c =>
      if l.1 ∈ M.composites then
        if M.present sem l.2 c then
          match sem.handler h ev l.2 c.first p c.world with
          | .ok _ _ w =>
            .ok () { c with world := w, calls := c.calls ++ [.handler h ev l.2 c.first p false []] }
          | .throw k _ w =>
            .throw (.user k)
              { c with world := w, calls := c.calls ++ [.handler h ev l.2 c.first p true []] }
          | .ub => .ub .callback
        else .ub .nullObject
      else .throw .outOfRange c

/-- The oldest deferred event is handled; what becomes of it is not reported. -/
def replay (fuel : Nat) (c : Conf P W) : Res (Conf P W) Unit :=
  match c.waiting with
  | [] => .ok () c
  | (ev, p) :: q =>
    if M.deferring then
      (M.handle sem fuel ev p { c with waiting := q }).bind fun _ c => .ok () c
    else .ok () c

/-- An event from the user.  If some region deferred it, or no region had a row that fired, the answer
is no; if no region had any row at all, the handler is called first.  Otherwise one deferred event
follows and the answer is yes. -/
def receive (fuel : Nat) (ev : EventTy) (p : P) (c : Conf P W) : Res (Conf P W) Bool :=
  (M.handle sem fuel ev p c).bind fun a c =>
    if .deferred ∈ a.1 then .ok false c
    else if .fired ∈ a.1 then (M.replay sem fuel c).bind fun _ c => .ok true c
    else if .rejected ∈ a.1 then .ok false c
    else (M.complain sem ev a.2 c).bind fun _ c => .ok false c

/-- One call of the user. -/
def exec (fuel : Nat) : Op P → Conf P W → Res (Conf P W) Bool
  | .process ev p, c => M.receive sem fuel ev p c
  | .set r p st, c =>
    if r % 256 < c.slots.length then .ok true { c with slots := c.slots.set (r % 256) (some (p, st)) }
    else .throw .outOfRange c
  | .setDependency d, c => .ok true { c with deps := d :: c.deps }

/-- Calls one after the other, also after exceptions; `none` if one is undefined or does not end. -/
def execAll (fuel : Nat) : List (Op P) → Conf P W → Option (Conf P W)
  | [], c => some c
  | op :: ops, c =>
    match M.exec sem fuel op c with
    | .ok _ c => execAll fuel ops c
    | .throw _ c => execAll fuel ops c
    | .ub _ => none
    | .timeout => none

/-- There is room for the regions of every composite. -/
def slotCount : Nat := (M.composites.map fun p => (M.declaredInitials p).length).foldl max 0

/-- A new machine: the regions of the root are at their initial states, every composite remembers its
own initial states. -/
def fresh (d : Dep) (w : W) : Conf P W where
  slots := ((M.declaredInitials M.root).map fun i => some (M.root, .st i)) ++
    List.replicate (M.slotCount - (M.declaredInitials M.root).length) none
  memory p := (M.declaredInitials p).map fun i => (p, .st i)
  waiting := []
  active := (M.declaredInitials M.root).length
  deps := [d]
  first := d
  world := w
  calls := []

end Machine
end Hsm
