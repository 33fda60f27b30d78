import Verif.Asking
import Verif.SystemsGen
import Verif.InterpGen

/-!
# Callbacks that ask machines of the amalgamated header

As Asking.lean, for `include/hsm/gen/hsm.h`.
-/

namespace Hsm

/-! ## Model -/

section
variable {ι P W : Type} [DecidableEq ι] (Ms : ι → Machine) (sem : SemA ι P W)

/-- A call or a question; calls from callbacks are nested at most `n` deep.  `is`, `parent_is` and `status` are those of
the modular headers.  Programs with calls of `set` do not compile; they are excluded by `OpOkGR`.
(gen/hsm.h:2351-2410) -/
def stepGL (fuel : Nat) : Nat → Wire ι → Op P → Hub (Wire ι) P W → Res (Hub (Wire ι) P W) Bool
  | 0, .inl _, _, _ => .timeout
  | n + 1, .inl i, op, h =>
    (match op with
     | .process ev p =>
       (processEventGR (Ms i) (sem.lines.at (.inl i) (.process ev p)) (nested (stepGL fuel n) (.inl i)) fuel ev p
         (h.fetch (.inl i))).bind fun _ s => .ok true s
     | .set _ _ _ => .ok true (h.fetch (.inl i))
     | .setDependency d =>
       (setDependencyG (Ms i) d (h.fetch (.inl i))).bind fun _ s => .ok true s).home (.inl i)
  | _, .inr (i, q), _, h => (q.put (Ms i) (h.fetch (.inl i))).told { h with request := none }

end

/-! ## Specification -/

section
variable {ι P W : Type}

/-- Machine `i` is safe, as `SafeGR`. -/
structure SafeGA (Ms : ι → Machine) (sem : SemA ι P W) (i : ι) : Prop where
  scopes : (Ms i).ScopesRealG
  targets : ∀ t ∈ (Ms i).extRows ++ (Ms i).intRowsG, ∀ l, (Ms i).targetLoc t = some l → l.1 ∈ (Ms i).composites
  rootInit : (Ms i).declaredInitials (Ms i).root ≠ []
  regions : ∀ p ∈ (Ms i).composites,
    ((Ms i).declaredInitials p).length ≤ ((Ms i).declaredInitials (Ms i).root).length
  history : (Ms i).historic = true → ∀ p ∈ (Ms i).composites,
    ((Ms i).declaredInitials p).length = ((Ms i).declaredInitials (Ms i).root).length
  noneNotDeferred : (Ms i).anonymous = true → ∀ p st, Cand.defer ∉ (Ms i).candsG .none p st
  objects : ∀ st, (Ms i).selfMade st = true ∨ ∀ w, sem.alive i st w = true

variable [DecidableEq ι]

/-- Histories of calls from outside, as `RunToGS`. -/
inductive RunToGA (Ms : ι → Machine) (sem : SemA ι P W) (d : ι → Dep) :
    List (ι × Op P) → Hub (Wire ι) P W → Prop
  | init {h : Hub (Wire ι) P W} (hi : ∀ i, constructG (Ms i) (d i) () = .ok (h.parts (.inl i))) :
      RunToGA Ms sem d [] h
  | ok {h h' : Hub (Wire ι) P W} {ops : List (ι × Op P)} {i : ι} {op : Op P} {fuel n : Nat} {b : Bool}
      (hr : RunToGA Ms sem d ops h) (hop : OpOkGR (Ms i) op) (hs : stepGL Ms sem fuel n (.inl i) op h = .ok b h') :
      RunToGA Ms sem d (ops ++ [(i, op)]) h'
  | throw {h h' : Hub (Wire ι) P W} {ops : List (ι × Op P)} {i : ι} {op : Op P} {fuel n : Nat} {x : Exn}
      (hr : RunToGA Ms sem d ops h) (hop : OpOkGR (Ms i) op)
      (hs : stepGL Ms sem fuel n (.inl i) op h = .throw x h') : RunToGA Ms sem d (ops ++ [(i, op)]) h'
  | world {h : Hub (Wire ι) P W} {ops : List (ι × Op P)} (hr : RunToGA Ms sem d ops h) (w : W) :
      RunToGA Ms sem d ops { h with user := w }

end
end Hsm
