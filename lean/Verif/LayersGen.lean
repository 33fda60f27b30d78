import Verif.Layers
import Verif.SystemsGen

/-!
# Programs in layers, with the amalgamated header

As `Layers.lean`, for machines built with `gen/hsm.h`.
-/

namespace Hsm

/-! ## Specification -/

section
variable {ι P W : Type} [DecidableEq ι] (Ms : ι → Machine) (sem : SemS ι P W)

open Classical in
/-- What a callback amounts to: its outcome with enough fuel and depth, if it ends. -/
noncomputable def SProg.effectG {α : Type} (pr : SProg ι P W α) (p : P) (h : Hub ι P W) : CbRes P (Hub ι P W) α :=
  if hx : ∃ fn : Nat × Nat, pr.play (stepGS Ms sem fn.1 fn.2) h ≠ .timeout then
    (pr.play (stepGS Ms sem hx.choose.1 hx.choose.2) h).toCb p
  else .ub

/-- The callbacks of machine `i` as callbacks that call nothing: the other machines are part of the world. -/
noncomputable def SemS.soloG (i : ι) : Sem P (Hub ι P W) where
  guard g a p h := (sem.guard i g a p h.user).effectG Ms sem p h
  action c a p h := (sem.action i c a p h.user).effectG Ms sem p h
  handler c e st d p h := (sem.handler i c e st d p h.user).effectG Ms sem p h
  alive st h := sem.alive i st h.user
  nonePayload := sem.nonePayload i

/-- The callbacks of a machine call only machines of lower layers. -/
structure SemS.LayeredG (layer : ι → Nat) : Prop where
  guard : ∀ i g a p w, (sem.guard i g a p w).Good True fun j op => layer j < layer i ∧ OpOkGR (Ms j) op
  action : ∀ i c a p w, (sem.action i c a p w).Good True fun j op => layer j < layer i ∧ OpOkGR (Ms j) op
  handler : ∀ i c e st d p w, (sem.handler i c e st d p w).Good True fun j op => layer j < layer i ∧ OpOkGR (Ms j) op

/-- As `Res.SeenAs`; `process_event` returns nothing. -/
def Res.SeenAsG (layer : ι → Nat) (i : ι) : Res (Hub ι P W) Bool → Res (SM P (Hub ι P W)) Unit → Prop
  | .ok _ g, .ok _ s => g.parts i = s.rebase () ∧ g.user = s.world.user ∧
      ∀ k, layer k < layer i → g.parts k = s.world.parts k
  | .throw _ g, .throw _ s => g.parts i = s.rebase () ∧ g.user = s.world.user ∧
      ∀ k, layer k < layer i → g.parts k = s.world.parts k
  | .ub _, .ub _ => True
  | .timeout, _ => True
  | _, _ => False

end
end Hsm
