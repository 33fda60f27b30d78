import Verif.PropsPlain

/-!
# Regions side by side

A machine whose composites all have the same number of regions, without anonymous rows, deferral and
history.  Each region is the small automaton of PropsPlain.lean, started in its own initial state.

This file is specification.  PropsAbreast.lean proves that the model of the code agrees (C90).
-/

namespace Hsm

/-- Every composite has `n` regions; there are no anonymous rows, deferred events and history. -/
structure Machine.Abreast (M : Machine) (n : Nat) : Prop where
  regions : ∀ p ∈ M.composites, (M.declaredInitials p).length = n
  anonymous : M.anonymous = false
  deferring : M.deferring = false
  historic : M.historic = false

namespace Machine
variable (M : Machine) (yes : Cb → Bool)

/-- One event in regions at the locations `ls`: whether one of them takes it, where they go, and which callbacks
are called, those of one region after those of the other.  If no region has a row for the event the
unexpected-event handler is called. -/
def together (ev : EventTy) (ls : List (Name × StTy)) : Bool × List (Name × StTy) × List Cb :=
  if ∀ l ∈ ls, M.rowsAt ev l = [] then (false, ls, (M.decl M.root).handler.toList)
  else (ls.any fun l => (M.tryRows yes l (M.rowsAt ev l)).1,
    ls.map fun l => (M.tryRows yes l (M.rowsAt ev l)).2.1,
    ls.flatMap fun l => (M.tryRows yes l (M.rowsAt ev l)).2.2)

/-- A sequence of events: the locations reached and all callbacks called. -/
def march (ls : List (Name × StTy)) : List EventTy → List (Name × StTy) × List Cb
  | [] => (ls, [])
  | e :: es => ((march (M.together yes e ls).2.1 es).1,
      (M.together yes e ls).2.2 ++ (march (M.together yes e ls).2.1 es).2)

/-- Where the regions are at first. -/
def starts : List (Name × StTy) := (M.declaredInitials M.root).map fun i => (M.root, .st i)

end Machine
end Hsm
