import Verif.InterpGenR
import Verif.Systems

/-!
# A reference interpreter for several machines

As InterpR.lean and InterpGenR.lean, for programs with any number of machines: a callback of any machine may
call any machine.  Such a call is interpreted on the spot, on the configuration the machine that is called has
by then; if the way leads back to a machine that is being called, the inner call is about the configuration
the outer one has reached, and the outer one goes on with what the inner one left.

This file is specification.  PropsInterpS.lean proves that the model of the code does the same (C119, C120).
-/

namespace Hsm

section
variable {ι P W : Type}

/-- A configuration with something else as the rest of the program. -/
def Conf.rebase {W' : Type} (c : Conf P W) (w : W') : Conf P W' :=
  { slots := c.slots, memory := c.memory, waiting := c.waiting, active := c.active, deps := c.deps,
    first := c.first, world := w, calls := c.calls }

/-- A program with the configurations of its machines, and the call a callback is making, if any. -/
structure Scene (ι P W : Type) where
  user : W
  parts : ι → Conf P Unit
  request : Option (ι × Op P)

/-- A callback, as `SProg.prog`. -/
def SProg.script {α : Type} (o : Op P) : SProg ι P W α → (ι → Conf P Unit) → Prog P (Scene ι P W) α
  | .ret a p w, m => .ret a p ⟨w, m, none⟩
  | .throw x w, m => .throw x ⟨w, m, none⟩
  | .ub, _ => .ub
  | .call i op w k, m => .call o ⟨w, m, some (i, op)⟩ fun r h => (k r h.user).script o h.parts

/-- The callbacks of machine `i`. -/
def SemS.on (sem : SemS ι P W) (i : ι) (o : Op P) : SemR P (Scene ι P W) where
  guard g a p h := (sem.guard i g a p h.user).script o h.parts
  action c a p h := (sem.action i c a p h.user).script o h.parts
  handler c e st d p h := (sem.handler i c e st d p h.user).script o h.parts
  alive st h := sem.alive i st h.user
  nonePayload := sem.nonePayload i

/-- Machine `i`, with everything else as the rest of the program. -/
def Scene.fetch (h : Scene ι P W) (i : ι) : Conf P (Scene ι P W) :=
  (h.parts i).rebase { h with request := none }

variable [DecidableEq ι]

/-- The program when machine `i` has reached configuration `c`. -/
def Scene.store (h : Scene ι P W) (i : ι) (c : Conf P (Scene ι P W)) : Scene ι P W :=
  ⟨h.user, fun j => if j = i then c.rebase () else h.parts j, none⟩

/-- The program after a call of machine `i`. -/
def Res.curtain {α : Type} (i : ι) : Res (Conf P (Scene ι P W)) α → Res (Scene ι P W) α
  | .ok a c => .ok a (c.world.store i c)
  | .throw x c => .throw x (c.world.store i c)
  | .ub u => .ub u
  | .timeout => .timeout

/-- Machine `i` after a call one of its callbacks made. -/
def Res.resume {α : Type} (i : ι) : Res (Scene ι P W) α → Res (Conf P (Scene ι P W)) α
  | .ok a h => .ok a (h.fetch i)
  | .throw x h => .throw x (h.fetch i)
  | .ub u => .ub u
  | .timeout => .timeout

/-- A call made by a callback of machine `i`; `exec` is what the machines do when they are called. -/
def aside (exec : ι → Op P → Scene ι P W → Res (Scene ι P W) Bool) (i : ι) (_ : Op P)
    (c : Conf P (Scene ι P W)) : Res (Conf P (Scene ι P W)) Bool :=
  match c.world.request with
  | none => .timeout
  | some (j, op) => (exec j op (c.world.store i c)).resume i

variable (Ms : ι → Machine) (sem : SemS ι P W)

/-- One call, from the user or from a callback; calls are nested at most `n` deep. -/
def execS (fuel : Nat) : Nat → ι → Op P → Scene ι P W → Res (Scene ι P W) Bool
  | 0, _, _, _ => .timeout
  | n + 1, i, op, h =>
    (match op with
     | .process ev p =>
       (Ms i).receiveR (sem.on i (.process ev p)) (aside (execS fuel n) i) fuel ev p (h.fetch i)
     | .set r p st =>
       if r % 256 < (h.parts i).slots.length then
         .ok true { h.fetch i with slots := (h.parts i).slots.set (r % 256) (some (p, st)) }
       else .throw .outOfRange (h.fetch i)
     | .setDependency d => .ok true { h.fetch i with deps := d :: (h.parts i).deps }).curtain i

/-- The same with `gen/hsm.h`, where `process_event` returns nothing and there is no `set`. -/
def execGS (fuel : Nat) : Nat → ι → Op P → Scene ι P W → Res (Scene ι P W) Bool
  | 0, _, _, _ => .timeout
  | n + 1, i, op, h =>
    (match op with
     | .process ev p =>
       ((Ms i).receiveGR (sem.on i (.process ev p)) (aside (execGS fuel n) i) fuel ev p (h.fetch i)).bind
         fun _ c => .ok true c
     | .set _ _ _ => .ok true (h.fetch i)
     | .setDependency d => .ok true { h.fetch i with deps := d :: (h.parts i).deps }).curtain i

/-- The program when all machines were constructed. -/
def curtainUp (d : ι → Dep) (w : W) : Scene ι P W := ⟨w, fun i => (Ms i).fresh (d i) (), none⟩

/-- Calls one after the other, also after exceptions; `none` if one is undefined or does not end. -/
def inTurn {κ σ : Type} (f : κ → σ → Res σ Bool) : List κ → σ → Option σ
  | [], s => some s
  | x :: xs, s =>
    match f x s with
    | .ok _ s => inTurn f xs s
    | .throw _ s => inTurn f xs s
    | .ub _ => none
    | .timeout => none

end
end Hsm
