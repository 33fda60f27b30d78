import Verif.Match
import Verif.InterpGen

/-!
# One program, two headers: a check

The modular headers and the amalgamated one do not agree on internal rows (C61).  For a given machine it can
be checked whether that matters: at every place the machine can come to, the rows that can be tried have to be
the same in both.

This file is specification.  PropsHeaders.lean proves that it is right about the models of the code (C91).
-/

namespace Hsm
namespace Machine

/-- The candidates that can be tried: none comes after a deferral or a row without guard. -/
def triable : List Cand → List Cand
  | [] => []
  | cd :: cs => cd :: if final cd then [] else triable cs

variable (M : Machine)

/-- At the spot `n` the same rows can be tried in both headers, whatever the event. -/
def alikeAt (n : Spot) : Bool :=
  n.slots.all fun
    | none => true
    | some l => decide (l.1 ∉ M.composites) || M.events.all fun ev =>
        decide (triable (M.cands ev l.1 l.2) = triable (M.candsG ev l.1 l.2))

/-- Nothing is deferred, and the same rows can be tried in both headers at the spots of `S`. -/
def headersAlike (S : List (Bool × Spot)) : Bool := !M.deferring && S.all fun x => M.alikeAt x.2

end Machine

end Hsm
