import Verif.Reentrant
import Verif.Shadow

/-!
# One machine in place of another

`Refines` (Shadow.lean) compares what clients of two machines observe; events are there without values, and
the clients need not be the same.  Here one client is considered, with its callbacks, its world and the
events it sends with their values.  If it is served by one machine, a refined machine serves it in the same
way.

This file is specification.  PropsReplace.lean proves that the model of the code agrees (C89).
-/

namespace Hsm

/-- What a client does between two calls: something to its world, then it sends an event. -/
structure Request (P W : Type) where
  work : W → W
  event : EventTy
  payload : P

/-- A client makes the requests `ts`, starting in world `w`; the calls reply `rs`, and the machine is left as
it is in `s`. -/
inductive Served {P W : Type} (M : Machine) (sem : Sem P W) (d : Dep) (w : W) :
    List (Request P W) → List Reply → SM P W → Prop
  | init {s : SM P W} (h : construct M d w = .ok s) : Served M sem d w [] [] s
  | ok {ts : List (Request P W)} {rs : List Reply} {s s' : SM P W} {t : Request P W} {fuel : Nat} {b : Bool}
      (hr : Served M sem d w ts rs s) (hop : OpOk M (.process t.event t.payload))
      (h : step M sem fuel (.process t.event t.payload) { s with world := t.work s.world } = .ok b s') :
      Served M sem d w (ts ++ [t]) (rs ++ [.ret b]) s'
  | throw {ts : List (Request P W)} {rs : List Reply} {s s' : SM P W} {t : Request P W} {fuel : Nat} {x : Exn}
      (hr : Served M sem d w ts rs s) (hop : OpOk M (.process t.event t.payload))
      (h : step M sem fuel (.process t.event t.payload) { s with world := t.work s.world } = .throw x s') :
      Served M sem d w (ts ++ [t]) (rs ++ [.threw x]) s'

/-- A call as the client remembers it: the arguments, the event with its value, and what it did itself. -/
def Call.remembered {P : Type} (v : StTy → StTy) : Call P → Call P
  | .guard g a p res _ => .guard g (a.seen v) p res []
  | .action ph f a p threw _ => .action ph f (a.seen v) p threw []
  | .handler h e st d p threw _ => .handler h e (v st) d p threw []

end Hsm
