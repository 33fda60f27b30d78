import Verif.Runtime

/-!
# `hsm::log`

`log` is an action the library provides.  It prints the types of its arguments: source, event and target.
-/

namespace Hsm

/-- A line printed by `log` (log.h:8-12): the types of the source object, of the event and of the target object;
`byPtr` if the target is passed as a pointer, so that the type printed is that of the pointer. -/
structure Line where
  source : StTy
  event : EventTy
  target : StTy
  byPtr : Bool
deriving DecidableEq, Repr

/-- What `log` prints when it is called with the arguments `a` (log.h:8-12).  The dependency is not printed. -/
def logLine (a : Args) : Line := { source := a.src, event := a.event, target := a.dst, byPtr := a.byPtr }

/-- The callbacks `sem` and `log`, which is the callback named `L` (log.h:8-12).  The lines printed are kept in the
second part of the world; no other callback prints. -/
def Sem.withLog {P W : Type} (L : Cb) (sem : Sem P W) : Sem P (W × List Line) where
  guard g a p w :=
    match sem.guard g a p w.1 with
    | .ok b p' w' => .ok b p' (w', w.2)
    | .throw n p' w' => .throw n p' (w', w.2)
    | .ub => .ub
  action f a p w :=
    if f = L then .ok () p (w.1, w.2 ++ [logLine a])
    else match sem.action f a p w.1 with
      | .ok u p' w' => .ok u p' (w', w.2)
      | .throw n p' w' => .throw n p' (w', w.2)
      | .ub => .ub
  handler h e st d p w :=
    match sem.handler h e st d p w.1 with
    | .ok u p' w' => .ok u p' (w', w.2)
    | .throw n p' w' => .throw n p' (w', w.2)
    | .ub => .ub
  alive st w := sem.alive st w.1
  nonePayload := sem.nonePayload

end Hsm
