import Verif.InterpGen
import Verif.PropsTrace

/-!
# The ledger of a machine of the amalgamated header

What a machine built with `gen/hsm.h` may do, entry by entry: a guard is asked in vain, a row fires, the
handler of unexpected events is called.  Places are named, there are no indices.  Whoever keeps a ledger
can tell from it where each region is and what each composite remembers.

This file is specification.  PropsLedger.lean proves that every machine keeps one (C93).
-/

namespace Hsm

/-- Where the regions are. -/
abbrev Places : Type := List (Option (Name × StTy))

/-- One entry. -/
structure Deed (P : Type) where
  region : Nat
  before : Places
  after : Places
  /-- an external row fired -/
  leaving : Bool
  calls : List (Call P)

section
variable {P : Type}

/-- With the regions at `before`, region `x.1 = r` was left at `l` while region 0 was in composite `q`. -/
def LeftIn (q : Name) (r : Nat) (x : Nat × Places) (l : Name × StTy) : Prop :=
  x.1 = r ∧ x.2[r]? = some (some l) ∧ ∃ st, x.2[0]? = some (some (q, st))

/-- After the departures `xs` composite `q` remembers `l` for region `r`: where that region was left last
while region 0 was in `q`, or its own initial state. -/
def Recalled (M : Machine) (xs : List (Nat × Places)) (q : Name) (r : Nat) (l : Name × StTy) : Prop :=
  (∃ a x b, xs = a ++ x :: b ∧ LeftIn q r x l ∧ ∀ y ∈ b, ∀ l', ¬ LeftIn q r y l') ∨
    ((∀ y ∈ xs, ∀ l', ¬ LeftIn q r y l') ∧ ∃ i, (M.declaredInitials q)[r]? = some i ∧ l = (q, .st i))

/-- The departures in a ledger. -/
def departures (ds : List (Deed P)) : List (Nat × Places) :=
  (ds.filter (·.leaving)).map fun x => (x.region, x.before)

/-- In region `r`, at `slots`, the candidate `cd` for event `ev` is row `t` to `l`, bound to `d`.  The
event is the none event or was given by the user. -/
structure RowHere (M : Machine) (D : List Dep) (E : List EventTy) (slots : Places) (r : Nat) (ev : EventTy)
    (cd : Cand) (t : XRow) (d : Dep) (l : Name × StTy) : Prop where
  place : ∃ p st, slots[r]? = some (some (p, st)) ∧ p ∈ M.composites ∧ cd ∈ M.candsG ev p st
  row : cd.row? = some t
  loc : M.targetLoc t = some l
  dep : d ∈ D
  event : ev = .none ∨ ev ∈ E

/-- The callbacks `cs` were called in order, all of them or up to one that threw. -/
def Ran (args : Args) (cs : List (Phase × Cb)) (as : List (Call P)) : Prop :=
  CalledAll args [] cs as ∨ CalledSome args [] cs as

/-- How many regions take part when region 0 is in `p`. -/
def width (M : Machine) (p : Name) : Nat := if M.orthogonal then (M.declaredInitials p).length else 1

/-- What may be entered after `past`.  `D` are the dependencies of the machine, `d0` is the first one, and
`E` are the events it was given. -/
inductive Deed.Fair (M : Machine) (D : List Dep) (d0 : Dep) (E : List EventTy) (past : List (Deed P)) :
    Deed P → Prop
  /-- a guard was asked and said no or threw; nothing moved -/
  | asked {slots : Places} {r : Nat} {ev : EventTy} {cd : Cand} {t : XRow} {d : Dep} {l : Name × StTy}
      {g : Cb} {q : P} {b : Option Bool} (hr : RowHere M D E slots r ev cd t d l) (hg : t.guard = some g)
      (hb : b ≠ some true) :
      Deed.Fair M D d0 E past ⟨r, slots, slots, false, [.guard g (rowGuardArgs cd t l ev d) q b []]⟩
  /-- an internal row fired; nothing moved -/
  | stayed {slots : Places} {r : Nat} {ev : EventTy} {cd : Cand} {t : XRow} {d : Dep} {l : Name × StTy}
      {gs as : List (Call P)} (hr : RowHere M D E slots r ev cd t d l) (ht : t.internal = true)
      (hg : SaidYes t (rowGuardArgs cd t l ev d) [] gs) (ha : Ran (cbArgs M cd t l ev d) (M.callbacks t) as) :
      Deed.Fair M D d0 E past ⟨r, slots, slots, false, gs ++ as⟩
  /-- an external row fired; its region moved to the target, or to what the composite remembers -/
  | moved {slots : Places} {r : Nat} {ev : EventTy} {cd : Cand} {t : XRow} {d : Dep} {l l' : Name × StTy}
      {gs as : List (Call P)} (hr : RowHere M D E slots r ev cd t d l) (ht : t.internal = false)
      (hl : (∀ o q, t.target ≠ .ps o (.history q)) → l' = l)
      (hh : ∀ o q, t.target = .ps o (.history q) → Recalled M (departures past ++ [(r, slots)]) q r l')
      (hg : SaidYes t (rowGuardArgs cd t l ev d) [] gs) (ha : Ran (cbArgs M cd t l ev d) (M.callbacks t) as) :
      Deed.Fair M D d0 E past ⟨r, slots, slots.set r (some l'), true, gs ++ as⟩
  /-- the handler was called with the object of the state region 0 is in, for an event of the user no
  region has a row for or defers -/
  | handled {slots : Places} {p : Name} {st : StTy} {ev : EventTy} {h : Cb} {q : P} {b : Bool}
      (hh : (M.decl M.root).handler = some h) (h0 : slots[0]? = some (some (p, st)))
      (hp : p ∈ M.composites) (he : ev ∈ E)
      (hn : ∀ r < width M p, ∃ l, slots[r]? = some (some l) ∧ M.candsG ev l.1 l.2 = []) :
      Deed.Fair M D d0 E past ⟨0, slots, slots, false, [.handler h ev st d0 q b []]⟩

/-- A ledger that begins with the regions at `start` and ends with them at `slots`. -/
inductive Ledger (M : Machine) (D : List Dep) (d0 : Dep) (E : List EventTy) (start : Places) :
    List (Deed P) → Places → Prop
  | nil : Ledger M D d0 E start [] start
  | snoc {ds : List (Deed P)} {x : Deed P} (h : Ledger M D d0 E start ds x.before)
      (hx : Deed.Fair M D d0 E ds x) : Ledger M D d0 E start (ds ++ [x]) x.after

/-- The regions of the root are at their initial states, nothing is said of other regions. -/
def startPlaces (M : Machine) : Places :=
  ((M.declaredInitials M.root).map fun i => some (M.root, .st i)) ++
    List.replicate (M.slotCount - (M.declaredInitials M.root).length) none

/-- The events a client hands to the machine. -/
def given : List (OpG P) → List EventTy
  | [] => []
  | .process ev _ :: ops => ev :: given ops
  | .setDependency _ :: ops => given ops

end

end Hsm
