import Verif.Checker

/-!
# Two machines no client can tell apart: a check

A machine is often rewritten: states are renamed, a composite is flattened or introduced, rows are
reordered, dead rows removed.  Here is a check for such changes.  It goes through pairs of spots
(Checker.lean), one of each machine, and compares what may happen there.

Callbacks get source and target objects, whose types differ if the states of the two machines do.
A view of the states says what callbacks make of the types; the two machines may have different views.

This file is specification.  PropsMatch.lean proves that it is right about the model of the code (C85).
-/

namespace Hsm

/-- The arguments of a callback as the client sees them. -/
def Args.seen (v : StTy → StTy) (a : Args) : Args := { a with src := v a.src, dst := v a.dst }

/-- A call as the client sees it. -/
def Call.seen {P : Type} (v : StTy → StTy) : Call P → Call P
  | .guard g a p res cur => .guard g (a.seen v) p res cur
  | .action ph f a p threw cur => .action ph f (a.seen v) p threw cur
  | .handler h e st d p threw cur => .handler h e (v st) d p threw cur

/-- The client `sem`, for a machine whose states it sees through `v`. -/
def Sem.seen {P W : Type} (v : StTy → StTy) (sem : Sem P W) : Sem P W where
  guard g a p w := sem.guard g (a.seen v) p w
  action f a p w := sem.action f (a.seen v) p w
  handler h e st d p w := sem.handler h e (v st) d p w
  alive st w := sem.alive (v st) w
  nonePayload := sem.nonePayload

namespace Machine

section
variable (M : Machine) (v : StTy → StTy)

/-- The guard of a candidate: its name, what it is asked with, and which objects the machine made. -/
def asks (ev : EventTy) (cd : Cand) (t : XRow) (l : Name × StTy) : Option (Cb × Args × Bool × Bool) :=
  t.guard.map fun g =>
    let dst := if t.internal then cd.src else l.2
    (g, Args.seen v ⟨ev, cd.src, dst, false, 0⟩, M.selfMade cd.src, M.selfMade dst)

/-- The callbacks of a candidate: what they are, what they are called with, and whether the machine
made the source object. -/
def calls (ev : EventTy) (cd : Cand) (t : XRow) (l : Name × StTy) :
    Option (List (Phase × Cb) × Args × Bool) :=
  (M.toRun t).map fun cs => (cs, (cbArgs M cd t l ev 0).seen v, M.selfMade cd.src)

/-- No candidate is tried after this one. -/
def final (cd : Cand) : Bool :=
  match cd.row? with
  | none => true
  | some t => t.guard.isNone

end

variable (M M' : Machine) (v v' : StTy → StTy) (R : List (Spot × Spot))

/-- The same candidate: both defer, or both ask the same guard, run the same callbacks and lead to a
pair of `R`. -/
def sameCand (r : Nat) (ev : EventTy) (n n' : Spot) (cd cd' : Cand) : Bool :=
  match cd.row?, cd'.row? with
  | none, none => true
  | some t, some t' =>
    match M.targetLoc t, M'.targetLoc t' with
    | none, none => true
    | some l, some l' =>
      decide (M.asks v ev cd t l = M'.asks v' ev cd' t' l') &&
      decide (M.calls v ev cd t l = M'.calls v' ev cd' t' l') &&
      match M.mayTravel r t l n, M'.mayTravel r t' l' n' with
      | .ok _ m, .ok _ m' => decide ((m, m') ∈ R)
      | .ub u, .ub u' => decide (u = u')
      | _, _ => false
    | _, _ => false
  | _, _ => false

/-- The same candidates in the same order, as far as they can be tried. -/
def sameCands (r : Nat) (ev : EventTy) (n n' : Spot) : List Cand → List Cand → Bool
  | [], [] => true
  | cd :: cs, cd' :: cs' =>
    M.sameCand M' v v' R r ev n n' cd cd' && (final cd || sameCands r ev n n' cs cs')
  | _, _ => false

/-- An event does the same to region `r`. -/
def sameVisit (r : Nat) (ev : EventTy) (n n' : Spot) : Bool :=
  match n.slots[r]?, n'.slots[r]? with
  | none, none => true
  | some none, some none => true
  | some (some l), some (some l') =>
    if l.1 ∈ M.composites then
      decide (l'.1 ∈ M'.composites) &&
        M.sameCands M' v v' R r ev n n' (M.cands ev l.1 l.2) (M'.cands ev l'.1 l'.2)
    else decide (l'.1 ∉ M'.composites)
  | _, _ => false

/-- The unexpected-event handler does the same. -/
def sameComplaint (n n' : Spot) : Bool :=
  match n.slots[0]?, n'.slots[0]? with
  | none, none => true
  | some none, some none => true
  | some (some l), some (some l') =>
    if l.1 ∈ M.composites then
      decide (l'.1 ∈ M'.composites) && decide (v l.2 = v' l'.2) &&
        decide (M.selfMade l.2 = M'.selfMade l'.2)
    else decide (l'.1 ∉ M'.composites)
  | _, _ => false

/-- Nothing that may happen at `n` and `n'` tells the machines apart, and all of it leads to pairs
of `R`. -/
def sameSpot (n n' : Spot) : Bool :=
  (!M.orthogonal || decide (n.active = n'.active)) &&
  ((List.range (if M.orthogonal then max n.slots.length n'.slots.length else 1)).all fun r =>
    M.events.all fun ev => M.sameVisit M' v v' R r ev n n') &&
  ((M.decl M.root).handler.isNone || M.sameComplaint M' v v' n n')

/-- The machines cannot be told apart, and `R` has the pairs of spots they can be at. -/
def same : Bool :=
  decide (M.orthogonal = M'.orthogonal) && decide (M.anonymous = M'.anonymous) &&
  decide (M.deferring = M'.deferring) &&
  decide ((M.decl M.root).handler = (M'.decl M'.root).handler) &&
  (M.events.all fun ev => decide (ev ∈ M'.events)) &&
  decide ((M.start, M'.start) ∈ R) &&
  R.all fun x => M.sameSpot M' v v' R x.1 x.2

/-- The pairs that follow a pair of spots, where the machines do the same. -/
def pairsAfter (n n' : Spot) : List (Spot × Spot) :=
  (List.range (max n.slots.length n'.slots.length)).flatMap fun r => M.events.flatMap fun ev =>
    match n.slots[r]?, n'.slots[r]? with
    | some (some l), some (some l') =>
      ((M.cands ev l.1 l.2).zip (M'.cands ev l'.1 l'.2)).filterMap fun x => do
        let t ← x.1.row?
        let t' ← x.2.row?
        let k ← M.targetLoc t
        let k' ← M'.targetLoc t'
        match M.mayTravel r t k n, M'.mayTravel r t' k' n' with
        | .ok _ m, .ok _ m' => some (m, m')
        | _, _ => none
    | _, _ => []

/-- The pairs of spots within `k` moves. -/
def pairUp : Nat → List (Spot × Spot)
  | 0 => [(M.start, M'.start)]
  | k + 1 => ((pairUp k) ++ (pairUp k).flatMap fun x => M.pairsAfter M' x.1 x.2).eraseDups

end Machine
end Hsm
