import Verif.Sim

/-!
# Several machines in one program

`Reentrant.lean` has one machine, used by its callbacks.  Here a program has any number of `sm` objects,
of the same or of different types, and every callback may use every one of them.  The objects share
nothing but what their callbacks share: `sm` has no static members that change.
-/

namespace Hsm

/-! ## Model -/

section
variable {ι P W : Type}

/-- What a callback does, as `Prog`: the call also says which machine is called.
(callbacks that refer to `sm` objects, e.g. by a dependency: sm.h:47) -/
inductive SProg (ι P W α : Type)
  | ret (a : α) (p : P) (w : W)
  | throw (x : Exn) (w : W)
  | ub
  | call (i : ι) (op : Op P) (w : W) (k : Reply → W → SProg ι P W α)

/-- The user's code of every machine, as `SemR`.  Simplification: one type for the payloads of all
machines. (dispatch_table.h:54-162) -/
structure SemS (ι P W : Type) where
  guard : ι → Cb → Args → P → W → SProg ι P W Bool
  action : ι → Cb → Args → P → W → SProg ι P W Unit
  handler : ι → Cb → EventTy → StTy → Dep → P → W → SProg ι P W Unit
  alive : ι → StTy → W → Bool
  nonePayload : ι → P

/-- A program with its machines: the user's world, the members of every machine (sm.h:37-44), and the call
a callback is making, if any. -/
structure Hub (ι P W : Type) where
  user : W
  parts : ι → SM P Unit
  request : Option (ι × Op P)

/-- A callback of a machine, the rest of the program being its world.  `o` stands for any call, which one is
said by `request`. (as `SProg`) -/
def SProg.prog {α : Type} (o : Op P) : SProg ι P W α → (ι → SM P Unit) → Prog P (Hub ι P W) α
  | .ret a p w, m => .ret a p ⟨w, m, none⟩
  | .throw x w, m => .throw x ⟨w, m, none⟩
  | .ub, _ => .ub
  | .call i op w k, m => .call o ⟨w, m, some (i, op)⟩ fun r h => (k r h.user).prog o h.parts

/-- The callbacks of machine `i`. (dispatch_table.h:54-162) -/
def SemS.at (sem : SemS ι P W) (i : ι) (o : Op P) : SemR P (Hub ι P W) where
  guard g a p h := (sem.guard i g a p h.user).prog o h.parts
  action c a p h := (sem.action i c a p h.user).prog o h.parts
  handler c e st d p h := (sem.handler i c e st d p h.user).prog o h.parts
  alive st h := sem.alive i st h.user
  nonePayload := sem.nonePayload i

/-- Machine `i` with the rest of the program as its world; no call is being made. (sm.h:37-44) -/
def Hub.fetch (h : Hub ι P W) (i : ι) : SM P (Hub ι P W) :=
  (h.parts i).rebase { h with request := none }

variable [DecidableEq ι]

/-- The program after machine `i` has run. (sm.h:37-44) -/
def Hub.store (h : Hub ι P W) (i : ι) (s : SM P (Hub ι P W)) : Hub ι P W :=
  ⟨h.user, fun j => if j = i then s.rebase () else h.parts j, none⟩

/-- The program after a call of machine `i`. (sm.h:88-173) -/
def Res.home {α : Type} (i : ι) : Res (SM P (Hub ι P W)) α → Res (Hub ι P W) α
  | .ok a s => .ok a (s.world.store i s)
  | .throw x s => .throw x (s.world.store i s)
  | .ub u => .ub u
  | .timeout => .timeout

/-- Machine `i` after a call some callback of it made. (sm.h:88-173) -/
def Res.back {α : Type} (i : ι) : Res (Hub ι P W) α → Res (SM P (Hub ι P W)) α
  | .ok a h => .ok a (h.fetch i)
  | .throw x h => .throw x (h.fetch i)
  | .ub u => .ub u
  | .timeout => .timeout

/-- A call made by a callback of machine `i`; `step` is how the machines handle calls.  Callbacks call with
a request. (sm.h:88-173) -/
def nested (step : ι → Op P → Hub ι P W → Res (Hub ι P W) Bool) (i : ι) (_ : Op P)
    (s : SM P (Hub ι P W)) : Res (SM P (Hub ι P W)) Bool :=
  match s.world.request with
  | none => .timeout
  | some (j, op) => (step j op (s.world.store i s)).back i

variable (Ms : ι → Machine) (sem : SemS ι P W)

/-- A call of machine `i`; calls from callbacks are nested at most `n` deep. (sm.h:88-173) -/
def stepS (fuel : Nat) : Nat → ι → Op P → Hub ι P W → Res (Hub ι P W) Bool
  | 0, _, _, _ => .timeout
  | n + 1, i, op, h =>
    (match op with
     | .process ev p =>
       processEventR (Ms i) (sem.at i (.process ev p)) (nested (stepS fuel n) i) fuel ev p (h.fetch i)
     | .set r p st => (setOp (Ms i) r p st (h.fetch i)).bind fun _ s => .ok true s
     | .setDependency d => (setDependency (Ms i) d (h.fetch i)).bind fun _ s => .ok true s).home i

end

/-! ## Specification -/

section
variable {ι P W : Type} [DecidableEq ι]

/-- Every call the program can make satisfies `Q`, and it does nothing undefined unless `U`. -/
def SProg.Good {α : Type} (U : Prop) (Q : ι → Op P → Prop) : SProg ι P W α → Prop
  | .ret _ _ _ => True
  | .throw _ _ => True
  | .ub => U
  | .call i op _ k => Q i op ∧ ∀ r w, (k r w).Good U Q

/-- The same for all callbacks. -/
structure SemS.Good (sem : SemS ι P W) (U : Prop) (Q : ι → Op P → Prop) : Prop where
  guard : ∀ i g a p w, (sem.guard i g a p w).Good U Q
  action : ∀ i c a p w, (sem.action i c a p w).Good U Q
  handler : ∀ i h e st d p w, (sem.handler i h e st d p w).Good U Q

/-- Histories of calls from outside on any of the machines, which were constructed with dependencies
`d`. -/
inductive RunToS (Ms : ι → Machine) (sem : SemS ι P W) (d : ι → Dep) : List (ι × Op P) → Hub ι P W → Prop
  | init {h : Hub ι P W} (hi : ∀ i, construct (Ms i) (d i) () = .ok (h.parts i)) : RunToS Ms sem d [] h
  | ok {h h' : Hub ι P W} {ops : List (ι × Op P)} {i : ι} {op : Op P} {fuel n : Nat} {b : Bool}
      (hr : RunToS Ms sem d ops h) (hop : OpOk (Ms i) op) (hs : stepS Ms sem fuel n i op h = .ok b h') :
      RunToS Ms sem d (ops ++ [(i, op)]) h'
  | throw {h h' : Hub ι P W} {ops : List (ι × Op P)} {i : ι} {op : Op P} {fuel n : Nat} {x : Exn}
      (hr : RunToS Ms sem d ops h) (hop : OpOk (Ms i) op) (hs : stepS Ms sem fuel n i op h = .throw x h') :
      RunToS Ms sem d (ops ++ [(i, op)]) h'
  | world {h : Hub ι P W} {ops : List (ι × Op P)} (hr : RunToS Ms sem d ops h) (w : W) :
      RunToS Ms sem d ops { h with user := w }

end
end Hsm
