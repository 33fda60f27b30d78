import Verif.Systems

/-!
# Programs in layers

In many programs of several machines the callbacks of a machine only use machines of lower layers: a machine
that controls others, which control others in turn.  This file says what such a machine looks like on its own.
-/

namespace Hsm

/-! ## Specification -/

section
variable {ι P W : Type}

/-- A callback and all it calls, run to the end; `step` is how the machines handle calls. -/
def SProg.play {α : Type} (step : ι → Op P → Hub ι P W → Res (Hub ι P W) Bool) :
    SProg ι P W α → Hub ι P W → Res (Hub ι P W) (α × P)
  | .ret a p w, h => .ok (a, p) ⟨w, h.parts, none⟩
  | .throw x w, h => .throw x ⟨w, h.parts, none⟩
  | .ub, _ => .ub .callback
  | .call i op w k, h =>
    match step i op ⟨w, h.parts, none⟩ with
    | .ok b h' => (k (.ret b) h'.user).play step h'
    | .throw x h' => (k (.threw x) h'.user).play step h'
    | .ub u => .ub u
    | .timeout => .timeout

/-- A number for every exception. -/
def Exn.code : Exn → Nat
  | .user n => n
  | .outOfRange => 0
  | .runtimeError => 1

/-- An outcome as that of a callback that calls nothing; `p` is the payload if it throws. -/
def Res.toCb {α : Type} (p : P) : Res (Hub ι P W) (α × P) → CbRes P (Hub ι P W) α
  | .ok ap h => .ok ap.1 ap.2 h
  | .throw x h => .throw x.code p h
  | .ub _ => .ub
  | .timeout => .ub

variable [DecidableEq ι] (Ms : ι → Machine) (sem : SemS ι P W)

open Classical in
/-- What a callback amounts to: its outcome with enough fuel and depth, if it ends. -/
noncomputable def SProg.effect {α : Type} (pr : SProg ι P W α) (p : P) (h : Hub ι P W) : CbRes P (Hub ι P W) α :=
  if hx : ∃ fn : Nat × Nat, pr.play (stepS Ms sem fn.1 fn.2) h ≠ .timeout then
    (pr.play (stepS Ms sem hx.choose.1 hx.choose.2) h).toCb p
  else .ub

/-- The callbacks of machine `i` as callbacks that call nothing: the other machines are part of the world. -/
noncomputable def SemS.solo (i : ι) : Sem P (Hub ι P W) where
  guard g a p h := (sem.guard i g a p h.user).effect Ms sem p h
  action c a p h := (sem.action i c a p h.user).effect Ms sem p h
  handler c e st d p h := (sem.handler i c e st d p h.user).effect Ms sem p h
  alive st h := sem.alive i st h.user
  nonePayload := sem.nonePayload i

/-- The callbacks of a machine call only machines of lower layers. -/
structure SemS.Layered (layer : ι → Nat) : Prop where
  guard : ∀ i g a p w, (sem.guard i g a p w).Good True fun j op => layer j < layer i ∧ OpOk (Ms j) op
  action : ∀ i c a p w, (sem.action i c a p w).Good True fun j op => layer j < layer i ∧ OpOk (Ms j) op
  handler : ∀ i c e st d p w, (sem.handler i c e st d p w).Good True fun j op => layer j < layer i ∧ OpOk (Ms j) op

/-- The calls on machine `i` among `ops`. -/
def callsOf (i : ι) (ops : List (ι × Op P)) : List (Op P) :=
  ops.filterMap fun x => if x.1 = i then some x.2 else none

/-- The outcome of a call of machine `i` in a program, and of the same call on the machine on its own: the same
members, and the same user's world and machines of lower layers.  Nothing is said if the first ran out of fuel or
depth. -/
def Res.SeenAs (layer : ι → Nat) (i : ι) : Res (Hub ι P W) Bool → Res (SM P (Hub ι P W)) Bool → Prop
  | .ok b g, .ok b' s => b = b' ∧ g.parts i = s.rebase () ∧ g.user = s.world.user ∧
      ∀ k, layer k < layer i → g.parts k = s.world.parts k
  | .throw _ g, .throw _ s => g.parts i = s.rebase () ∧ g.user = s.world.user ∧
      ∀ k, layer k < layer i → g.parts k = s.world.parts k
  | .ub _, .ub _ => True
  | .timeout, _ => True
  | _, _ => False

/-- Programs that agree on what matters to the layers below `L`. -/
def Hub.Near (layer : ι → Nat) (L : Nat) (h h' : Hub ι P W) : Prop :=
  h.user = h'.user ∧ ∀ k, layer k < L → h.parts k = h'.parts k

/-- Programs that differ from `h` at most in machine `j` and in machines of lower layers. -/
def Hub.Within (layer : ι → Nat) (j : ι) (h g : Hub ι P W) : Prop :=
  ∀ k, k ≠ j → layer j ≤ layer k → g.parts k = h.parts k

/-- The same outcome as far as the layers below `L` are concerned; the call was one of machine `j`. -/
def Res.Near {α : Type} (layer : ι → Nat) (L : Nat) (j : ι) (h h' : Hub ι P W) :
    Res (Hub ι P W) α → Res (Hub ι P W) α → Prop
  | .ok a g, .ok a' g' => a = a' ∧ g.Near layer L g' ∧ h.Within layer j g ∧ h'.Within layer j g'
  | .throw x g, .throw x' g' => x = x' ∧ g.Near layer L g' ∧ h.Within layer j g ∧ h'.Within layer j g'
  | .ub u, .ub u' => u = u'
  | .timeout, .timeout => True
  | _, _ => False

/-- What holds of the program after a call that ends, in one way or another. -/
def Res.Out {σ α : Type} (Φ : σ → Prop) : Res σ α → Prop
  | .ok _ g => Φ g
  | .throw _ g => Φ g
  | .ub _ => True
  | .timeout => True

end
end Hsm
