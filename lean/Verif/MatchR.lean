import Verif.Match
import Verif.InterpGenR

/-!
# Two machines no client can tell apart, location by location: a check

The check of Match.lean goes through pairs of spots, that is, of places of all regions together.  A callback
that uses the machine may move a region while another is being dealt with, so that such pairs say
little about what comes next.  Here is a check for clients of that kind.  It goes through pairs of
locations: wherever a region of the one machine is, the same region of the other is at a location the
list pairs with it, and there both machines do the same.

The check is made for a way to find candidates and the events known, so that it serves both headers.

This file is specification.  PropsMatchR.lean proves that it is right about the model of the code
(C112, C113).
-/

namespace Hsm

/-- The client `sem`, for a machine whose states it sees through `v`. -/
def SemR.seen {P W : Type} (v : StTy → StTy) (sem : SemR P W) : SemR P W where
  guard g a p w := sem.guard g (a.seen v) p w
  action f a p w := sem.action f (a.seen v) p w
  handler h e st d p w := sem.handler h e (v st) d p w
  alive st w := sem.alive (v st) w
  nonePayload := sem.nonePayload

/-- Pairs of locations of two machines. -/
abbrev Pairing := List ((Name × StTy) × (Name × StTy))

namespace Pairing
variable (R : Pairing)

/-- Some locations in the two composites are paired. -/
def owners (p p' : Name) : Bool := R.any fun x => decide (x.1.1 = p) && decide (x.2.1 = p')

/-- No composite is paired with two. -/
def faithful : Bool := R.all fun x => R.all fun y => decide (x.1.1 = y.1.1 ↔ x.2.1 = y.2.1)

/-- The locations of two lists are paired one by one. -/
def match? : List (Name × StTy) → List (Name × StTy) → Bool
  | [], [] => true
  | l :: ls, l' :: ls' => decide ((l, l') ∈ R) && match? ls ls'
  | _, _ => false

end Pairing

namespace Machine

/-- The locations of the initial states of composite `p`. -/
def firsts (M : Machine) (p : Name) : List (Name × StTy) := (M.declaredInitials p).map fun i => (p, .st i)

section
variable (M M' : Machine) (v v' : StTy → StTy) (R : Pairing)

/-- The same candidate: both defer, or both ask the same guard, run the same callbacks and lead to paired
locations, or to the history of paired composites. -/
def likeCand (ev : EventTy) (cd cd' : Cand) : Bool :=
  match cd.row?, cd'.row? with
  | none, none => true
  | some t, some t' =>
    match M.targetLoc t, M'.targetLoc t' with
    | none, none => true
    | some l, some l' =>
      decide (M.asks v ev cd t l = M'.asks v' ev cd' t' l') &&
      decide (M.calls v ev cd t l = M'.calls v' ev cd' t' l') &&
      decide (t.internal = t'.internal) &&
      (t.internal ||
        (decide (toHistory t.target = toHistory t'.target) &&
          if M.historic && toHistory t.target then R.owners l.1 l'.1 else decide ((l, l') ∈ R)))
    | _, _ => false
  | _, _ => false

/-- The same candidates in the same order, as far as they can be tried. -/
def likeCands (ev : EventTy) : List Cand → List Cand → Bool
  | [], [] => true
  | cd :: cs, cd' :: cs' =>
    M.likeCand M' v v' R ev cd cd' && (final cd || likeCands ev cs cs')
  | _, _ => false

variable (C C' : EventTy → Name → StTy → List Cand) (evs evs' : List EventTy)

/-- Nothing that may happen to a region at `l` and `l'` tells the machines apart. -/
def likeLoc (l l' : Name × StTy) : Bool :=
  if l.1 ∈ M.composites then
    decide (l'.1 ∈ M'.composites) &&
    (evs.all fun ev => M.likeCands M' v v' R ev (C ev l.1 l.2) (C' ev l'.1 l'.2)) &&
    (!M.orthogonal || decide ((M.declaredInitials l.1).length = (M'.declaredInitials l'.1).length)) &&
    (!M.historic || R.match? (M.firsts l.1) (M'.firsts l'.1)) &&
    ((M.decl M.root).handler.isNone ||
      (decide (v l.2 = v' l'.2) && decide (M.selfMade l.2 = M'.selfMade l'.2)))
  else decide (l'.1 ∉ M'.composites)

/-- The machines cannot be told apart, and `R` pairs the locations their regions can be at. -/
def like : Bool :=
  decide (M.orthogonal = M'.orthogonal) && decide (M.anonymous = M'.anonymous) &&
  decide (M.deferring = M'.deferring) && decide (M.historic = M'.historic) &&
  decide ((M.decl M.root).handler = (M'.decl M'.root).handler) &&
  decide (M.slotCount = M'.slotCount) &&
  (evs.all fun ev => decide (ev ∈ evs')) &&
  R.match? (M.firsts M.root) (M'.firsts M'.root) &&
  (!M.historic || R.faithful) &&
  R.all fun x => M.likeLoc M' v v' R C C' evs x.1 x.2

/-- The pairs that follow a pair of locations, where the machines do the same. -/
def locsAfter (l l' : Name × StTy) : Pairing :=
  evs.flatMap fun ev =>
    ((C ev l.1 l.2).zip (C' ev l'.1 l'.2)).filterMap fun x => do
      let t ← x.1.row?
      let t' ← x.2.row?
      let k ← M.targetLoc t
      let k' ← M'.targetLoc t'
      if t.internal || toHistory t.target then none else some (k, k')

/-- The pairs of locations within `n` moves; with history also the initial ones of composites on the
way. -/
def pairLocs : Nat → Pairing
  | 0 => (M.firsts M.root).zip (M'.firsts M'.root)
  | n + 1 =>
    let R := pairLocs n
    (R ++ R.flatMap (fun x => M.locsAfter M' C C' evs x.1 x.2) ++
      if M.historic then R.flatMap fun x => (M.firsts x.1.1).zip (M'.firsts x.2.1) else []).eraseDups

end

/-- The check for the modular header. -/
def likeM (M M' : Machine) (v v' : StTy → StTy) (R : Pairing) : Bool :=
  M.like M' v v' R M.cands M'.cands M.events M'.events

/-- The check for the amalgamated header. -/
def likeG (M M' : Machine) (v v' : StTy → StTy) (R : Pairing) : Bool :=
  M.like M' v v' R M.candsG M'.candsG M.eventsG M'.eventsG

end Machine

/-- The calls a client may make: those the static assertions of the first machine allow, and `set` only
for a location that both machines have and that is paired with itself. -/
def CallOk {P : Type} (M M' : Machine) (R : Pairing) : Op P → Prop
  | .process ev _ => ev ∈ M.eventIds
  | .set _ p st => (p ∈ M.parents ∧ st ∈ M.stateIds) ∧ (p ∈ M'.parents ∧ st ∈ M'.stateIds) ∧
      ((p, st), (p, st)) ∈ R
  | .setDependency _ => True

/-- The regions of the two machines are at paired locations. -/
def Abreast {P W : Type} (M M' : Machine) (R : Pairing) (s s' : SM P W) : Prop :=
  s.cur.length = s'.cur.length ∧
  ∀ (r k : Nat), s.cur[r]? = some (some k) → ∃ l l', (l, l') ∈ R ∧ k = M.comb l.1 l.2 ∧
    s'.cur[r]? = some (some (M'.comb l'.1 l'.2))

end Hsm
