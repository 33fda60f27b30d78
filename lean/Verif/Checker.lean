import Verif.Interp

/-!
# What a machine may do: a checker

The reference interpreter (Interp.lean) follows one client.  Here all clients are followed at once:
guards may answer either way, every callback may throw.  Only where a machine is matters then: a `Spot`
says where the regions are, what the composites remember and how many regions take part.  For a given
machine the spots can be listed, so that a list of spots can be checked by evaluation: `closed` says
that it leaves out nothing, `safe` that nothing undefined can happen at its spots.

This file is specification.  PropsChecker.lean proves that the model of the code agrees (C80).
-/

namespace Hsm

/-- Where a machine is. -/
structure Spot where
  /-- where each region is -/
  slots : List (Option (Name × StTy))
  /-- what each composite remembers, in the order of `Machine.composites` -/
  memory : List (List (Name × StTy))
  /-- how many regions take part -/
  active : Nat
deriving DecidableEq

/-- What `set` is called with: region, composite and state. -/
abbrev SetArgs := Nat × Name × StTy

/-- `set` is called only with arguments in `A`. -/
def SetsIn {P : Type} (A : List SetArgs) (ops : List (Op P)) : Prop :=
  ∀ r p st, Op.set r p st ∈ ops → (r, p, st) ∈ A

/-- What follows, for every possibility. -/
def branch {σ α β : Type} (rs : List (Res σ α)) (f : α → σ → List (Res σ β)) : List (Res σ β) :=
  rs.flatMap fun
    | .ok a s => f a s
    | .throw x s => [.throw x s]
    | .ub u => [.ub u]
    | .timeout => [.timeout]

/-- The outcome with another view of the state. -/
def Res.view {σ τ α : Type} (f : σ → τ) : Res σ α → Res τ α
  | .ok a s => .ok a (f s)
  | .throw x s => .throw x (f s)
  | .ub u => .ub u
  | .timeout => .timeout

namespace Machine
variable (M : Machine)

/-- Where the machine is in configuration `c`. -/
def sight {P W : Type} (c : Conf P W) : Spot := ⟨c.slots, M.composites.map c.memory, c.active⟩

/-- A configuration that is at spot `n`. -/
def place (n : Spot) : Conf Unit Unit where
  slots := n.slots
  memory q := ((M.composites.zip n.memory).lookup q).getD []
  waiting := []
  active := n.active
  deps := []
  first := 0
  world := ()
  calls := []

/-- Region `r` moves. -/
def mayTravel (r : Nat) (t : XRow) (l : Name × StTy) (n : Spot) : Res Spot Unit :=
  (M.travel r t l (M.place n)).view M.sight

/-- Row `t` fires; if it runs callbacks, one of them may throw. -/
def mayTake (r : Nat) (t : XRow) (l : Name × StTy) (n : Spot) : List (Res Spot Unit) :=
  branch [M.mayTravel r t l n] fun _ n =>
    match M.toRun t with
    | none => [.ok () n]
    | some [] => [.ok () n]
    | some (_ :: _) => [.ok () n, .throw (.user 0) n]

/-- The candidates are tried; a guard may throw, agree or refuse. -/
def mayAttempt (anon : Bool) (r : Nat) : List Cand → Spot → List (Res Spot RegionOut)
  | [], n => [.ok .rejected n]
  | cd :: cs, n =>
    match cd.row? with
    | none => if anon then [.ub .nullTransition] else [.ok .deferred n]
    | some t =>
      match M.targetLoc t with
      | none => [.ub .nullTransition]
      | some l =>
        let fire := branch (M.mayTake r t l n) fun _ n => [.ok .fired n]
        if t.guard = none then fire else .throw (.user 0) n :: (fire ++ mayAttempt anon r cs n)

/-- One region and an event. -/
def mayVisit (anon : Bool) (r : Nat) (ev : EventTy) (n : Spot) : List (Res Spot RegionOut) :=
  match n.slots[r]? with
  | none => [.ub .bounds]
  | some none => [.ub .uninit]
  | some (some l) =>
    if l.1 ∈ M.composites then
      if M.cands ev l.1 l.2 = [] then [.ok .none n] else M.mayAttempt anon r (M.cands ev l.1 l.2) n
    else [.ub .bounds]

/-- The regions one after the other, until one defers the event. -/
def maySweep (ev : EventTy) : List Nat → List RegionOut → Spot → List (Res Spot (List RegionOut))
  | [], os, n => [.ok os n]
  | r :: rs, os, n =>
    branch (M.mayVisit false r ev n) fun o n =>
      if o = .deferred then [.ok (os ++ [.deferred]) n] else maySweep ev rs (os ++ [o]) n

/-- A round of anonymous rows; the answer says whether another one is due. -/
def mayRound : List Nat → List RegionOut → Spot → List (Res Spot Bool)
  | [], os, n => [.ok (decide (.fired ∈ os)) n]
  | r :: rs, os, n =>
    branch (M.mayVisit true r .none n) fun o n =>
      if o = .none then [.ok false n] else mayRound rs (os ++ [o]) n

/-- The regions that take part. -/
def involved (n : Spot) : List Nat := List.range (if M.orthogonal then n.active else 1)

/-- The unexpected-event handler. -/
def mayComplain (n : Spot) : List (Res Spot Unit) :=
  match (M.decl M.root).handler with
  | none => [.ok () n]
  | some _ =>
    match n.slots[0]? with
    | none => [.ub .bounds]
    | some none => [.ub .uninit]
    | some (some l) =>
      if l.1 ∈ M.composites then [.ok () n, .throw (.user 0) n] else [.throw .outOfRange n]

/-- What an event may do.  The answer says whether rounds of anonymous rows follow. -/
def mayReceive (ev : EventTy) (n : Spot) : List (Res Spot Bool) :=
  branch (M.maySweep ev (M.involved n) [] n) fun os n =>
    if .deferred ∈ os then [.ok false n]
    else if .fired ∈ os then [.ok M.anonymous n]
    else if .rejected ∈ os then [.ok false n]
    else branch (M.mayComplain n) fun _ n => [.ok false n]

/-- One step from spot `n`: between two calls any event may arrive, in the middle of a call (`true`) a
round of anonymous rows is next. -/
def next : Bool → Spot → List (Res Spot Bool)
  | false, n => M.events.flatMap fun ev => M.mayReceive ev n
  | true, n => M.mayRound (M.involved n) [] n

/-- Where a new machine is. -/
def start : Spot := M.sight (M.fresh 0 () : Conf Unit Unit)

/-- `set` with the given arguments. -/
def maySet (a : SetArgs) (n : Spot) : Res Spot Bool :=
  if a.1 % 256 < n.slots.length then .ok false { n with slots := n.slots.set (a.1 % 256) (some a.2) }
  else .throw .outOfRange n

/-- One step from spot `n` if the client may also call `set` with the arguments in `A`. -/
def moves (A : List SetArgs) (b : Bool) (n : Spot) : List (Res Spot Bool) :=
  M.next b n ++ if b then [] else A.map fun a => maySet a n

/-- The spots a machine may come to; `true` in the middle of a call. -/
inductive Walk (A : List SetArgs) : Bool → Spot → Prop
  | start : Walk A false M.start
  | ok {b b' : Bool} {n n' : Spot} (h : Walk A b n) (hn : .ok b' n' ∈ M.moves A b n) : Walk A b' n'
  | throw {b : Bool} {n n' : Spot} {x : Exn} (h : Walk A b n) (hn : .throw x n' ∈ M.moves A b n) :
      Walk A false n'

/-- The list `S` leaves out no spot. -/
def closed (A : List SetArgs) (S : List (Bool × Spot)) : Bool :=
  decide ((false, M.start) ∈ S) && S.all fun s => (M.moves A s.1 s.2).all fun
    | .ok b n => decide ((b, n) ∈ S)
    | .throw _ n => decide ((false, n) ∈ S)
    | .ub _ => true
    | .timeout => true

/-- Nothing undefined can happen at the spots of `S`. -/
def safe (S : List (Bool × Spot)) : Bool :=
  S.all fun s => (M.next s.1 s.2).all fun
    | .ub _ => false
    | _ => true

/-- In the middle of a call at spot `n`: whatever the callbacks do, at most `k` rounds of anonymous rows
follow. -/
def within : Nat → Spot → Bool
  | 0, _ => false
  | k + 1, n => (M.next true n).all fun
    | .ok true n' => within k n'
    | _ => true

/-- Rounds of anonymous rows can go on for ever at spot `n`. -/
def Spins (n : Spot) : Prop := ∃ f : Nat → Spot, f 0 = n ∧ ∀ i, .ok true (f (i + 1)) ∈ M.next true (f i)

/-- No call started at the spots of `S` takes more than `k` rounds of anonymous rows in a row. -/
def calm (k : Nat) (S : List (Bool × Spot)) : Bool := S.all fun s => !s.1 || M.within k s.2

/-- The spots of `S`, and those one step further. -/
def grow (A : List SetArgs) (S : List (Bool × Spot)) : List (Bool × Spot) :=
  (S ++ S.flatMap fun s => (M.moves A s.1 s.2).filterMap fun
    | .ok b n => some (b, n)
    | .throw _ n => some (false, n)
    | .ub _ => none
    | .timeout => none).eraseDups

/-- The spots within `k` steps. -/
def explore (A : List SetArgs) : Nat → List (Bool × Spot)
  | 0 => [(false, M.start)]
  | k + 1 => M.grow A (explore A k)

end Machine
end Hsm
