import Verif.Systems
import Verif.ReentrantGen

/-!
# Several machines of the amalgamated header

As Systems.lean, for `include/hsm/gen/hsm.h`.
-/

namespace Hsm

/-! ## Model -/

section
variable {ι P W : Type} [DecidableEq ι] (Ms : ι → Machine) (sem : SemS ι P W)

/-- A call of machine `i`; calls from callbacks are nested at most `n` deep.  Programs with calls of `set` do
not compile; they are excluded by `OpOkGR`. (gen/hsm.h:2351-2410) -/
def stepGS (fuel : Nat) : Nat → ι → Op P → Hub ι P W → Res (Hub ι P W) Bool
  | 0, _, _, _ => .timeout
  | n + 1, i, op, h =>
    (match op with
     | .process ev p =>
       (processEventGR (Ms i) (sem.at i (.process ev p)) (nested (stepGS fuel n) i) fuel ev p
         (h.fetch i)).bind fun _ s => .ok true s
     | .set _ _ _ => .ok true (h.fetch i)
     | .setDependency d => (setDependencyG (Ms i) d (h.fetch i)).bind fun _ s => .ok true s).home i

end

/-! ## Specification -/

section
variable {ι P W : Type} [DecidableEq ι]

/-- Histories of calls from outside on any of the machines, which were constructed with dependencies
`d`. -/
inductive RunToGS (Ms : ι → Machine) (sem : SemS ι P W) (d : ι → Dep) : List (ι × Op P) → Hub ι P W → Prop
  | init {h : Hub ι P W} (hi : ∀ i, constructG (Ms i) (d i) () = .ok (h.parts i)) : RunToGS Ms sem d [] h
  | ok {h h' : Hub ι P W} {ops : List (ι × Op P)} {i : ι} {op : Op P} {fuel n : Nat} {b : Bool}
      (hr : RunToGS Ms sem d ops h) (hop : OpOkGR (Ms i) op) (hs : stepGS Ms sem fuel n i op h = .ok b h') :
      RunToGS Ms sem d (ops ++ [(i, op)]) h'
  | throw {h h' : Hub ι P W} {ops : List (ι × Op P)} {i : ι} {op : Op P} {fuel n : Nat} {x : Exn}
      (hr : RunToGS Ms sem d ops h) (hop : OpOkGR (Ms i) op)
      (hs : stepGS Ms sem fuel n i op h = .throw x h') : RunToGS Ms sem d (ops ++ [(i, op)]) h'
  | world {h : Hub ι P W} {ops : List (ι × Op P)} (hr : RunToGS Ms sem d ops h) (w : W) :
      RunToGS Ms sem d ops { h with user := w }

end
end Hsm
